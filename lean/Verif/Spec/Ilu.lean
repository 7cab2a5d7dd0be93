import Verif.Model.Ilu
import Verif.Spec.Gsetc

/-! # Specification of incomplete factorisations -/

namespace Istl
variable {R : Type} [Ring R]

/-- Unit lower factor: the stored entries left of the diagonal, ones on it. -/
def lowerFactor (F : SpMat R) (i k : Nat) : R := if k < i then F.entry i k else if k = i then 1 else 0

/-- Upper factor: the stored entries right of the diagonal, the pivots on it. -/
def upperFactor (F : SpMat R) (piv : Nat → R) (k j : Nat) : R := if k < j then F.entry k j else if k = j then piv k else 0

/-- `F` holds an incomplete LU factorisation of `A` on the pattern of `A`: unit lower factor, upper factor, inverses of the
pivots on the diagonal; the product of the factors agrees with `A` wherever `A` stores an entry. -/
structure IsILU (A F : SpMat R) (piv : Nat → R) : Prop where
  n : F.n = A.n
  m : F.m = A.m
  pattern : ∀ i, i < A.n → (F.row i).map Prod.fst = (A.row i).map Prod.fst
  pivot : ∀ i, i < A.n → piv i * F.entry i i = 1 ∧ F.entry i i * piv i = 1
  product : ∀ i j, A.Has i j → ∑ k ∈ Finset.range A.n, lowerFactor F i k * upperFactor F piv k j = A.entry i j

end Istl

import Verif.Model.SpMat
import Verif.Spec.Row

/-! # Specification of built matrices -/

namespace Istl
namespace SpMat

/-- Well-formed built matrix: column indices of every row ascending and below `M()`. -/
def WF {B : Type} (A : SpMat B) : Prop := ∀ i < A.n, (A.row i).Asc ∧ ∀ e ∈ A.row i, e.1 < A.m

/-- Mathematical entry `a_ij`: the stored block, zero outside the pattern. -/
def entry {B : Type} [Zero B] (A : SpMat B) (i j : Nat) : B := (A.row i).val j

/-- `(i,j)` is in the sparsity pattern. -/
def Has {B : Type} (A : SpMat B) (i j : Nat) : Prop := i < A.n ∧ (A.row i).Has j

end SpMat
end Istl

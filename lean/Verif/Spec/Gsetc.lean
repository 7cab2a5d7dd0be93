import Verif.Model.Gsetc
import Verif.Spec.SpMat

/-! # Specification vocabulary for triangular solves and splitting iterations -/

namespace Istl
namespace SpMat
variable {B X Y : Type} [AddCommGroup X] [AddCommGroup Y]

/-- `Σ a_ij x_j` over the stored entries of row `i` whose column satisfies `P`. -/
def partSum (act : B → X →+ Y) (A : SpMat B) (P : Nat → Prop) [DecidablePred P] (x : Nat → X) (i : Nat) : Y :=
  (((A.row i).filter fun e => decide (P e.1)).map fun e => act e.2 (x e.1)).sum

/-- `(A x)_i`. -/
def apply (act : B → X →+ Y) (A : SpMat B) (x : Nat → X) (i : Nat) : Y := A.partSum act (fun _ => True) x i

/-- Every row has a diagonal entry. -/
def HasDiag (A : SpMat B) : Prop := ∀ i, i < A.n → (A.row i).Has i

/-- Column indices of every row ascending. -/
def Sorted (A : SpMat B) : Prop := ∀ i, i < A.n → (A.row i).Asc

/-- Every diagonal block is invertible. -/
def DiagInvertible (act : B → X →+ Y) (A : SpMat B) : Prop :=
  ∀ i, i < A.n → ∀ a, (A.row i).Stores i a → Function.Bijective (act a)

end SpMat
end Istl

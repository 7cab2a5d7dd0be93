import Verif.Spec.SpMat
import Verif.Model.SpMat

/-! # Specification of Dirichlet rows -/

namespace Istl
namespace Amg

/-- Row `i` is a Dirichlet row: the diagonal entry is stored and all other entries are zero (stored or not). -/
def Dirichlet {B : Type} [Zero B] (A : SpMat B) (i : Nat) : Prop := A.Has i i ∧ ∀ j, j ≠ i → A.entry i j = 0

/-- `solve d r` gives a solution of `d v = r`, or throws (contract of `FieldMatrix::solve`). -/
def Solves {B V : Type} [AddCommGroup B] [AddCommGroup V] (β : BlockAct B V V) (solve : B → V → Res V) : Prop :=
  ∀ d r v, solve d r = .ok v → β.mul d v = r

end Amg
end Istl

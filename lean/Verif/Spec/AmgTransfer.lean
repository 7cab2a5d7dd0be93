import Verif.Model.AmgTransfer
import Verif.Spec.SpMat
import Verif.Spec.Dense

/-! # Specification: the piecewise constant prolongation of an aggregates map -/

namespace Istl
namespace Amg
open Finset

/-- The map assigns each of the `n` fine vertices to one of `k` aggregates or marks it as isolated. -/
def MapOK (agg : List Agg) (n k : Nat) : Prop :=
  agg.length = n ∧ ∀ i, i < n → agg[i]? = some .iso ∨ ∃ a, a < k ∧ agg[i]? = some (.id a)

/-- The prolongation: `(P c)_i = c_a` if vertex `i` belongs to aggregate `a`, and `0` if it is isolated. -/
def P {X : Type} [Zero X] (agg : List Agg) (c : Nat → X) (i : Nat) : X :=
  match agg[i]? with
  | some (.id a) => c a
  | _ => 0

/-- Its transpose: `(Pᵀ d)_a` is the sum of `d_i` over the `n` fine vertices of aggregate `a`. -/
def Pt {X : Type} [AddCommMonoid X] (agg : List Agg) (n : Nat) (d : Nat → X) (a : Nat) : X :=
  ∑ i ∈ range n, if agg[i]? = some (.id a) then d i else 0

/-- Entry `(a,b)` of `Pᵀ A P`: the sum of the entries `(i,j)` of `A` with `i` in aggregate `a` and `j` in aggregate `b`. -/
def PtAP {B : Type} [AddCommMonoid B] (agg : List Agg) (A : SpMat B) (a b : Nat) : B :=
  ∑ i ∈ range A.n, ∑ j ∈ range A.m, if agg[i]? = some (.id a) ∧ agg[j]? = some (.id b) then A.entry i j else 0

end Amg
end Istl

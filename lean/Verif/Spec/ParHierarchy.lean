import Verif.Model.ParHierarchy
import Verif.Spec.ParGalerkin

/-! # Specification of the matrix hierarchy on several processes -/

namespace Istl
namespace Amg
open Par Finset
variable {B : Type}

/-- The aggregates among the vertices a process owns. -/
def ownAggs (A : PIS) (m : Nat → Agg) : Finset Nat :=
  ((A.filter fun e => e.attr = .owner).filterMap fun e => match m e.loc with | .id a => some a | _ => none).toFinset

/-- What is asked of the aggregation: on a square matrix whose indices the index set numbers, with couplings between own vertices in both
directions or none, the aggregates of the own vertices are connected, no own vertex is left without a decision, and the number returned is
the number of aggregates. -/
def AggrOk (aggr : Bool → Nat → PIS → SpMat B → (Nat → Agg) × Nat) : Prop :=
  ∀ finest p A (M : SpMat B) gr, M.WF → matrixGraph M = .ok gr → PisOk A → (∀ e ∈ A, e.loc < M.n) → (∀ v, v < M.n → ∃ e ∈ A, e.loc = v) →
    (∀ e ∈ A, e.attr = .owner → ∀ f ∈ A, f.attr = .owner → M.Has e.loc f.loc → M.Has f.loc e.loc) →
    OwnConnected gr A (aggr finest p A M).1 ∧
    (∀ e ∈ A, e.attr = .owner → (aggr finest p A M).1 e.loc ≠ .unagg) ∧ (aggr finest p A M).2 = (ownAggs A (aggr finest p A M).1).card

/-- The messages of all other processes arrive in some order, on every level. -/
def AllArrive (P : Nat) (order : Nat → Nat → List Nat) : Prop := ∀ l q, q < P → (order l q).Perm ((List.range P).filter (· ≠ q))

/-- A level holds the matrix `M` on the index set `G`: every index is owned by exactly one process, and the rows of owner and overlap
indices are those of `M`, with a symmetric coupling graph; among the own indices of a process the pattern of the matrix is symmetric. -/
structure Holding [AddCommGroup B] (P : Nat) (A : DistLevel B) (G : Finset Nat) (M : Nat → Nat → B) : Prop where
  decomp : Decomp P A.pis A.sz G
  rows : OverlapMat P A.pis A.sz G A.mat M
  pattern : ∃ S, OverlapPat P A.pis A.mat S
  symm : ∀ p, p < P → ∀ e ∈ A.pis p, e.attr = .owner → ∀ f ∈ A.pis p, f.attr = .owner → (A.mat p).Has e.loc f.loc → (A.mat p).Has f.loc e.loc

end Amg
end Istl

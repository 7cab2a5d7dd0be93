import Verif.Model.AmgHierarchy
import Verif.Spec.AmgTransfer

/-! # Specification: a Galerkin hierarchy -/

namespace Istl
namespace Amg
open Finset
variable {B : Type}

/-- `coarse` is the Galerkin product of `fine` for the map: one unknown per (non-empty) aggregate; stored are the diagonal and the couplings
between aggregates; the entries are those of `Pᵀ A P`. -/
structure IsCoarsening [AddCommMonoid B] (fine : SpMat B) (map : List Agg) (coarse : SpMat B) : Prop where
  square : fine.m = fine.n ∧ coarse.m = coarse.n
  wf : fine.WF ∧ coarse.WF
  map_ok : MapOK map fine.n coarse.n
  onto : ∀ a < coarse.n, ∃ i < fine.n, map[i]? = some (.id a)
  pattern : ∀ a < coarse.n, ∀ b, coarse.Has a b ↔
    (b = a ∨ ∃ i j, fine.Has i j ∧ map[i]? = some (.id a) ∧ map[j]? = some (.id b))
  entries : ∀ a < coarse.n, ∀ b < coarse.n, coarse.entry a b = PtAP map fine a b

/-- The levels from the finest to the coarsest: there is one map per level, that of the coarsest level being empty, and each matrix but the
first is the coarsening of the one before. -/
structure IsHierarchy [AddCommMonoid B] (A : SpMat B) (s : MH B) : Prop where
  count : s.maps.length = s.mats.length
  finest : s.mats[0]? = some A
  last_map : s.maps.getLast? = some []
  step : ∀ l, l + 1 < s.mats.length → ∃ fine map coarse, s.mats[l]? = some fine ∧ s.maps[l]? = some map ∧ s.mats[l + 1]? = some coarse ∧
    IsCoarsening fine map coarse

/-- The aggregate of vertex `i` of the finest level on level `l`, following the maps of the levels below `l`; `none` if the vertex or an
aggregate containing it is isolated. -/
def cluster (maps : List (List Agg)) : Nat → Nat → Option Nat
  | 0, i => some i
  | l + 1, i =>
    match cluster maps l i with
    | none => none
    | some a => match (maps.getD l [])[a]? with
      | some (.id b) => some b
      | _ => none

/-- The number of stored entries. -/
def nonzeros (A : SpMat B) : Nat := ∑ i ∈ range A.n, (A.row i).length

end Amg
end Istl

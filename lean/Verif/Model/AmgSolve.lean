import Verif.Model.AmgHierarchy
import Verif.Model.AmgCycle
import Verif.Model.Prec
import Verif.Spec.Gsetc

/-!
# AMG as a whole, sequential case: the multigrid cycle on the hierarchy that was built

The cycle (Model/AmgCycle.lean) leaves matrices, smoothers and transfer operators open; here they are those of the levels built by the
matrix hierarchy (Model/AmgHierarchy.lean). A block vector of level `l` is a function on the indices of which the first `N_l` components are
meaningful; the transfer operators are run on the arrays of these components.
-/

namespace Istl
namespace Amg
variable {B K V : Type}

/-- A result, or something else if the call failed (the proofs show that it does not). -/
def okOr {α : Type} (a : α) : Res α → α
  | .ok x => x
  | _ => a

/-- The matrix of level `l`; beyond the coarsest level there is none (no cycle looks there). dune/istl/paamg/matrixhierarchy.hh:214. -/
def MH.level (s : MH B) (l : Nat) : SpMat B := s.mats.getD l ⟨0, 0, fun _ => []⟩

/-- The first `n` components as an array. -/
def toArr (n : Nat) (x : Nat → V) : List V := (List.range n).map x

/-- An array as a function on the indices. -/
def ofArr [Zero V] (l : List V) : Nat → V := fun i => l.getD i 0

/-- A smoother: constructed from the matrix of a level, then called for pre-smoothing (`true`) or post-smoothing (`false`) with `v` and `d`.
dune/istl/paamg/smoother.hh:368-398. -/
abbrev Smoother (B V : Type) := SpMat B → Bool → (Nat → V) → (Nat → V) → Res (Nat → V)

/-- `SmootherApplier<SeqSOR>`: forward sweeps for pre-, backward sweeps for post-smoothing. dune/istl/paamg/smoother.hh:443-461. -/
def sorSmoother [AddCommGroup V] [CommRing K] [Module K V] (β : BlockSolve B V V) (k : Nat) (w : K) : Smoother B V :=
  fun A fwd v d => Prec.sorDir β fwd A k w v d

/-- `SmootherApplier<SeqSSOR>`: the general case, `apply` both times. dune/istl/paamg/smoother.hh:368-398. -/
def ssorSmoother [AddCommGroup V] [CommRing K] [Module K V] (β : BlockSolve B V V) (k : Nat) (w : K) : Smoother B V :=
  fun A _ v d => Prec.iterate k (Prec.ssorStep β w A d) v

/-- `*levelContext.matrix` applied to a vector of level `l`. dune/istl/operators.hh:149-159. -/
def levelMul [AddCommGroup V] (act : B → V →+ V) (A : SpMat B) (x : Nat → V) : Nat → V :=
  fun i => if i < A.n then A.apply act x i else 0

/-- The restriction from level `l`. dune/istl/paamg/amg.hh:956-958. -/
def levelRestrict [AddCommGroup V] (s : MH B) (l : Nat) (x : Nat → V) : Res (List V) :=
  restrict (s.maps.getD l []) (List.replicate (s.level (l + 1)).n 0) (toArr (s.level l).n x)

/-- The prolongation to level `l` of a vector that is already damped, added to zero. dune/istl/paamg/amg.hh:1008-1012. -/
def levelProlong [AddCommGroup V] (s : MH B) (l : Nat) (c : Nat → V) : Res (List V × List V) :=
  prolongate (s.maps.getD l []) (toArr (s.level (l + 1)).n c) (List.replicate (s.level l).n 0) (1 : Nat)

/-- The `AMG` object for a hierarchy; `cs v d` is the coarse solver, `d` having as many components as the coarsest matrix has rows.
dune/istl/paamg/amg.hh:340-378, 408-466. -/
def amgOf [AddCommGroup V] (act : B → V →+ V) (sm : Smoother B V) (s : MH B)
    (cs : (Nat → V) → (Nat → V) → (Nat → V) × (Nat → V) × Bool) (damp : K) (steps gamma : Nat) : Setup K (Nat → V) where
  coarsest := s.mats.length - 1
  mat l x := levelMul act (s.level l) x
  pre l v d := okOr v (sm (s.level l) true v d)
  post l v d := okOr v (sm (s.level l) false v d)
  restr l x := ofArr (okOr [] (levelRestrict s l x))
  prol l c := ofArr (okOr ([], []) (levelProlong s l c)).2
  solve v d := cs v (fun i => if i < (s.level (s.mats.length - 1)).n then d i else 0)
  damp := damp
  preSteps := steps
  postSteps := steps
  gamma := gamma

end Amg
end Istl

import Verif.Model.AmgHierarchy
import Verif.Model.ParGalerkin

/-!
# The matrix hierarchy of AMG on several processes: dune/istl/paamg/matrixhierarchy.hh

No level is redistributed (`accumulate() == noAccu`). The processes run the same loop in lock step: the values the decisions depend on are
sums over all processes. What a process computes is given by the functions of the models of the parts; the runs of the whole are a
relation, since the order of arrival of messages and the result of `std::sort` for overlap vertices of one aggregate are not determined.
The aggregation of the own vertices of a process is an arbitrary function.
-/

namespace Istl
namespace Amg
open Par
variable {B : Type}

/-- One level: index sets, numbers of unknowns and matrices of all processes. dune/istl/paamg/matrixhierarchy.hh:211-215. -/
structure DistLevel (B : Type) where
  pis : Nat → PIS
  sz : Nat → Nat
  mat : Nat → SpMat B

/-- Everything `build` depends on: the number of processes, the criterion, the aggregation (finest level or not, process, index set,
matrix; the map and `noAggregates`), the flags of the vertices at the boundary, the orders of arrival on each level (coarsening of the
indices, publishing, diagonal of the coarse matrix), uninitialised values, and whether the category is `nonoverlapping`. -/
structure HierEnv (B : Type) where
  P : Nat
  crit : HierCrit
  aggr : Bool → Nat → PIS → SpMat B → (Nat → Agg) × Nat
  pub : Nat → Nat → Nat → Bool
  order : Nat → Nat → List Nat
  order' : Nat → Nat → List Nat
  order'' : Nat → Nat → List Nat
  junk : Nat → Nat → B
  novlp : Bool

/-- `communicator().sum(x)`. dune/istl/paamg/matrixhierarchy.hh:425-428, 561. -/
def HierEnv.sum (c : HierEnv B) (x : Nat → Nat) : Nat := ((List.range c.P).map x).sum

/-- `gnoAggregates` on a level. dune/istl/paamg/matrixhierarchy.hh:510-511, 560-562. -/
def HierEnv.noAggregates (c : HierEnv B) (level : Nat) (A : DistLevel B) : Nat :=
  c.sum fun p => (c.aggr (level == 0) p (A.pis p) (A.mat p)).2

/-- From the aggregates of the own vertices to the coarse level, on all processes: the graphs, the coarse index sets, the remote
indices, their synchronisation, publishing, the pattern and the entries of the coarse matrix. `coarse` and `agg'` are the coarse level
and the aggregates maps the processes end with. dune/istl/paamg/matrixhierarchy.hh:494-508, 598-671. -/
def CoarsenRun [Add B] [Zero B] (c : HierEnv B) (level : Nat) (fine : DistLevel B) (coarse : DistLevel B) (agg' : Nat → Nat → Agg) : Prop :=
  ∃ (gr : Nat → Graph) (s : Nat → CoSt) (R : Nat → Nat → List (Idx × Attr)) (ov : Nat → List Nat) (rows : Nat → List (List Nat))
    (rs : Nat → List B),
    (∀ p, p < c.P → matrixGraph (fine.mat p) = .ok (gr p)) ∧
    (∀ p, p < c.P → buildCoarse (gr p) (fine.pis p) (c.pub level p) (fine.sz p + 1)
      (c.aggr (level == 0) p (fine.pis p) (fine.mat p)).1 = some (.ok (s p))) ∧
    (∀ p q, p < c.P → q < c.P → p ≠ q →
      coarseRemote (s p).number (s p).agg (remoteList (fine.pis p) (fine.pis q)) (s p).indices = .ok (R p q)) ∧
    (∀ q, q < c.P → sync (s q).indices (s q).number ((c.order level q).map fun p => R p q) = (coarse.pis q, coarse.sz q)) ∧
    (∀ q, q < c.P → publishOwner fine.pis coarse.pis (fun p => (s p).agg) q (c.order' level q) = .ok (agg' q)) ∧
    (∀ p, p < c.P → Sorted (fine.pis p) (fine.sz p) (agg' p) (ov p)) ∧
    (∀ p, p < c.P → parBuild (gr p) (fine.sz p + 1) (fine.pis p) (agg' p) (coarse.sz p) c.novlp (ov p) = some (.ok (rows p))) ∧
    (∀ p, p < c.P → galerkinDiag (fine.mat p) ((List.range (fine.mat p).n).map (agg' p))
      (patternMat (coarse.sz p) (rows p) (c.junk level p)) = .ok (rs p)) ∧
    (∀ p, p < c.P → parCalculate coarse.pis rs p (c.order'' level p) (fine.mat p) ((List.range (fine.mat p).n).map (agg' p))
      (patternMat (coarse.sz p) (rows p) (c.junk level p)) = .ok (coarse.mat p))

/-- The runs of the level loop: passes left, level, the matrix of the level, `dunknowns`; the levels that are coarsened with their
aggregates maps, and the coarsest level. dune/istl/paamg/matrixhierarchy.hh:433-673. -/
inductive HierRun [Add B] [Zero B] (c : HierEnv B) : Nat → Nat → DistLevel B → Nat → List (DistLevel B × (Nat → Nat → Agg)) → DistLevel B → Prop
  /-- `level == maxLevel()` -/
  | levels (level A u) : HierRun c 0 level A u [] A
  /-- lines 490-492 -/
  | small (todo level A) (u : Nat) (h : (u : Int) ≤ c.crit.coarsenTarget) : HierRun c (todo + 1) level A u [] A
  /-- lines 570-597; the map is removed again -/
  | breakdown (todo level A) (u : Nat) (h : ¬ (u : Int) ≤ c.crit.coarsenTarget) (hr : rateBreakdown c.crit u (c.noAggregates level A)) :
      HierRun c (todo + 1) level A u [] A
  /-- the whole loop body -/
  | coarsen (todo level A) (u : Nat) (A' agg' lv last) (h : ¬ (u : Int) ≤ c.crit.coarsenTarget)
      (hr : ¬ rateBreakdown c.crit u (c.noAggregates level A)) (hc : CoarsenRun c level A A' agg')
      (hn : HierRun c todo (level + 1) A' (c.noAggregates level A) lv last) :
      HierRun c (todo + 1) level A u ((A, agg') :: lv) last

/-- `build(criterion)`: the runs that return, with the levels made. dune/istl/paamg/matrixhierarchy.hh:401-739. -/
def BuildRun [Add B] [Zero B] (c : HierEnv B) (A : DistLevel B) (lv : List (DistLevel B × (Nat → Nat → Agg))) (last : DistLevel B) : Prop :=
  HierRun c c.crit.maxLevel 0 A (c.sum fun p => (A.mat p).n) lv last

/-- The `l`-th level of the hierarchy. dune/istl/paamg/hierarchy.hh:53-69. -/
def levelAt : List (DistLevel B × (Nat → Nat → Agg)) → DistLevel B → Nat → DistLevel B
  | [], last, _ => last
  | x :: _, _, 0 => x.1
  | _ :: lv, last, l + 1 => levelAt lv last l

/-- `aggregatesMaps()` on level `l`, which is not the coarsest. dune/istl/paamg/matrixhierarchy.hh:209, 815-819. -/
def mapAt : List (DistLevel B × (Nat → Nat → Agg)) → Nat → Nat → Nat → Agg
  | [], _ => fun _ _ => .iso
  | x :: _, 0 => x.2
  | _ :: lv, l + 1 => mapAt lv l

end Amg
end Istl

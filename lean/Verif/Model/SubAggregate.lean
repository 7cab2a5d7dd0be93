import Verif.Model.Aggregator
import Verif.Model.SubGraph
import Verif.Model.ParHierarchy

/-!
# Aggregation of the own vertices of a process

dune/istl/paamg/matrixhierarchy.hh:494-508 with dune/istl/paamg/graphcreator.hh: the graph of the local matrix without the vertices whose
attribute is not `owner`, and the aggregator on what is left. The edges of all vertices are read before the aggregation (the code reads them
when it needs them). The flags of vertices and edges are arbitrary.
-/

namespace Istl
namespace Amg
open Par
variable {B : Type}

/-- `GraphCreator::create(*matrix, excluded, *info, OverlapFlags())` with `excluded` a vector of `N()` times false and the overlap flags
`NegateSet<OwnerSet>`. The constructor of `PropertiesGraph` reads `noEdges()`. dune/istl/paamg/matrixhierarchy.hh:500-502;
dune/istl/paamg/graphcreator.hh:37-52; dune/istl/paamg/graph.hh:2367-2371. -/
def ownSubGraph (M : SpMat B) (A : PIS) : Res SubGraph := do
  let g ← matrixGraph M
  let ex ← excludeFlags (List.replicate M.n false) (A.map fun e => (e.loc, decide (e.attr ≠ .owner)))
  let S ← mkSubGraph g (edgeStart M M.n) ex
  let _ ← S.numEdges
  .ok S

/-- The edges of the subgraph as the aggregator sees them: `graph.beginEdges(v)` to `graph.endEdges(v)`.
dune/istl/paamg/graph.hh:1933-1942. -/
def SubGraph.toGraph (S : SubGraph) (n : Nat) : Res Graph := do
  let adj ← (List.range n).mapM fun v => do
    let l ← S.edgesOf v
    .ok (l.map Prod.fst)
  .ok ⟨n, fun v => adj.getD v []⟩

/-- `AggregatesMap(maxVertex()+1)` and `buildAggregates(matrix, graph, criterion, finestLevel)` on the subgraph: `Stack::pop` runs over the
vertices of the graph. dune/istl/paamg/matrixhierarchy.hh:504-511; dune/istl/paamg/aggregates.hh:1687-1692, 2388-2544, 2552-2580. -/
def aggregateOwn (M : SpMat B) (A : PIS) (P : Props) (c : Crit) (fuel : Nat) : Option (Res BuildSt) :=
  match ownSubGraph M A with
  | .throw e => some (.throw e)
  | .ub => some .ub
  | .ok S =>
    match S.toGraph M.n with
    | .throw e => some (.throw e)
    | .ub => some .ub
    | .ok G =>
      match S.vertices fuel with
      | none => none
      | some (.throw e) => some (.throw e)
      | some .ub => some .ub
      | some (.ok vs) => buildLoop G P c fuel vs ⟨⟨fun _ => .unagg, [], fun _ => false, [], [], -1⟩, 0, 0, 0, 0, 1000000, 0, 0⟩

/-- The map and the number of aggregates as the hierarchy uses them, for flags `P` and a criterion that may depend on the level (being the
finest), the process, the index set and the matrix. For a process without unknowns, where the code reads an uninitialised number of edges,
the empty map is taken. dune/istl/paamg/matrixhierarchy.hh:504-511. -/
def ownAggr (P : Bool → Nat → PIS → SpMat B → Props) (c : Crit) (finest : Bool) (p : Nat) (A : PIS) (M : SpMat B) : (Nat → Agg) × Nat :=
  match aggregateOwn M A (P finest p A M) c (M.n + 1) with
  | some (.ok b) => (b.st.agg, b.con + b.iso)
  | _ => (fun _ => .unagg, 0)

end Amg
end Istl

import Verif.Model.AmgTransfer

/-!
# Graphs of matrices, breadth first search, renumbering, sparsity pattern of the coarse matrix

dune/istl/paamg/graph.hh (`MatrixGraph`), dune/istl/paamg/aggregates.hh (`AggregatesMap::breadthFirstSearch`),
dune/istl/paamg/renumberer.hh, dune/istl/paamg/galerkin.hh (`GalerkinProduct<SequentialInformation>::build`).

Vertex arrays (aggregates map, visited flags) are total functions here; all accesses are at vertices of the graph. `while` loops
have a fuel argument; `none` means that the loop still runs.
-/

namespace Istl
namespace Amg

variable {B σ : Type}

/-- A graph with the vertices `0..n-1`; `adj u` lists the targets of the edges of `u` in the order of the edge iterator.
dune/istl/paamg/graph.hh:49-436. -/
structure Graph where
  n : Nat
  adj : Nat → List Nat

/-- The iterator skips one diagonal entry at its position. dune/istl/paamg/graph.hh:1543-1546, 1578-1581. -/
def skipDiag (source : Nat) : List Nat → List Nat
  | [] => []
  | c :: r => if c = source then r else c :: r

theorem skipDiag_length (source : Nat) (l : List Nat) : (skipDiag source l).length ≤ l.length := by
  cases l with
  | nil => simp [skipDiag]
  | cons c r =>
    simp only [skipDiag]
    split <;> simp

/-- The sequence of (target, edge descriptor) visited by `for(edge = beginEdges(v); edge != endEdges(v); ++edge)`, where `l` are
the columns from the current position to the end of the row. dune/istl/paamg/graph.hh:1537-1583. -/
def edgesFrom (source : Nat) (l : List Nat) (edge : Nat) : List (Nat × Nat) :=
  match h : skipDiag source l with
  | [] => []
  | c :: r => (c, edge) :: edgesFrom source r (edge + 1)
termination_by l.length
decreasing_by
  have := skipDiag_length source l
  rw [h] at this
  simp at this
  omega

/-- `start_`: the first edge number of each row, counting all stored entries. dune/istl/paamg/graph.hh:1474-1480. -/
def edgeStart (A : SpMat B) : Nat → Nat
  | 0 => 0
  | i + 1 => edgeStart A i + (A.row i).length

/-- The edges of a vertex with their descriptors. dune/istl/paamg/graph.hh:1760-1790 (`beginEdges`, `endEdges`). -/
def matrixEdges (A : SpMat B) (v : Nat) : List (Nat × Nat) := edgesFrom v ((A.row v).map Prod.fst) (edgeStart A v)

/-- `MatrixGraph(matrix)`: throws for a non-square matrix. dune/istl/paamg/graph.hh:1467-1481. -/
def matrixGraph (A : SpMat B) : Res Graph :=
  if A.n ≠ A.m then .throw .istlError
  else .ok ⟨A.n, fun v => (matrixEdges A v).map Prod.fst⟩

/-- `MatrixGraph::findEdge(source, target)`; `none` is the largest number. dune/istl/paamg/graph.hh:1507-1522. -/
def findEdge (A : SpMat B) (source target : Nat) : Option Nat :=
  match ((A.row source).map Prod.fst).findIdx? (· == target) with
  | none => none
  | some offset => some (edgeStart A source + if target > source then offset - 1 else offset)

/-! ## Breadth first search -/

/-- The visitors of the search and the aggregates map, which a visitor may change: `agg` reads the map, `inner` is called for an
edge (source, target) to a new vertex of the aggregate, `outer` for an edge to another aggregate.
dune/istl/paamg/aggregates.hh:1746-1752. -/
structure Visitor (σ : Type) where
  agg : σ → Nat → Agg
  inner : σ → Nat → Nat → σ
  outer : σ → Nat → Nat → σ

/-- State of the search: the list `visited`, the visited flags and the data of the visitors. -/
structure BfsSt (σ : Type) where
  visited : List Nat
  mark : Nat → Bool
  data : σ

/-- Loop body for one edge. dune/istl/paamg/aggregates.hh:1774-1782. -/
def bfsEdge (V : Visitor σ) (a : Agg) (u : Nat) (s : BfsSt σ) (t : Nat) : BfsSt σ :=
  if V.agg s.data t = a then
    if s.mark t = true then s
    else ⟨s.visited ++ [t], upd s.mark t true, V.inner s.data u t⟩
  else { s with data := V.outer s.data u t }

/-- All edges of one vertex. dune/istl/paamg/aggregates.hh:1768-1783. -/
def bfsVertex (G : Graph) (V : Visitor σ) (a : Agg) (s : BfsSt σ) (u : Nat) : BfsSt σ := (G.adj u).foldl (bfsEdge V a u) s

/-- The loop over the current sphere: the list positions from `i` to the size at its start.
dune/istl/paamg/aggregates.hh:1767-1784. -/
def bfsSphere (G : Graph) (V : Visitor σ) (a : Agg) (s : BfsSt σ) (i : Nat) : BfsSt σ :=
  (s.visited.drop i).foldl (bfsVertex G V a) s

/-- The outer loop; returns also the number of spheres. dune/istl/paamg/aggregates.hh:1765-1789. -/
def bfsLoop (G : Graph) (V : Visitor σ) (a : Agg) : Nat → BfsSt σ → Nat → Nat → Option (BfsSt σ × Nat)
  | 0, _, _, _ => none
  | fuel + 1, s, i, spheres =>
    if i = s.visited.length then some (s, spheres)
    else
      let s' := bfsSphere G V a s i
      bfsLoop G V a fuel s' s.visited.length (if s'.visited.length = s.visited.length then spheres else spheres + 1)

/-- `breadthFirstSearch<remove,reset>(start, aggregate, graph, visited, aggregateVisitor, nonAggregateVisitor, visitedMap)`.
dune/istl/paamg/aggregates.hh:1744-1800. -/
def bfs (G : Graph) (V : Visitor σ) (remove reset : Bool) (fuel start : Nat) (a : Agg) (s : BfsSt σ) :
    Option (BfsSt σ × Nat) :=
  (bfsLoop G V a fuel ⟨s.visited ++ [start], upd s.mark start true, s.data⟩ 0 0).map fun r =>
    (⟨if remove then [] else r.1.visited, if reset then (r.1.visited.foldl (fun m v => upd m v false) r.1.mark) else r.1.mark,
      r.1.data⟩, r.2)

/-! ## Renumbering -/

/-- `AggregateRenumberer` as a visitor; the other edges go to a dummy. dune/istl/paamg/renumberer.hh:50-54. -/
def renumVisitor (number : Nat) : Visitor (Nat → Agg) where
  agg d := d
  inner d _ t := upd d t (.id number)
  outer d _ _ := d

/-- State of `renumberAggregates`: the map, the flags, the next number. -/
structure RenSt where
  agg : Nat → Agg
  mark : Nat → Bool
  number : Nat

/-- Loop body. dune/istl/paamg/renumberer.hh:69-76. -/
def renumStep (G : Graph) (fuel : Nat) (s : RenSt) (i : Nat) : Option RenSt :=
  if s.agg i ≠ .iso ∧ s.mark i = false then
    (bfs G (renumVisitor s.number) true false fuel i (s.agg i) ⟨[], s.mark, s.agg⟩).map fun r =>
      ⟨upd r.1.data i (.id s.number), r.1.mark, s.number + 1⟩
  else some s

/-- `renumberAggregates(graph, index, endIndex, visitedMap, aggregates)` over all vertices. The flags are reset at the end.
dune/istl/paamg/renumberer.hh:62-80. -/
def renumberAggregates (G : Graph) (fuel : Nat) (agg : Nat → Agg) (mark : Nat → Bool) : Option RenSt :=
  ((List.range G.n).foldlM (renumStep G fuel) ⟨agg, mark, 0⟩).map fun s =>
    { s with mark := (List.range G.n).foldl (fun m v => upd m v false) s.mark }

/-! ## Sparsity pattern of the coarse matrix -/

/-- `ConnectedBuilder` as the visitor for edges to other aggregates; the data is the set of columns of the current row.
dune/istl/paamg/galerkin.hh:359-365. -/
def connVisitor (agg : Nat → Agg) : Visitor (List Nat) where
  agg _ := agg
  inner d _ _ := d
  outer d _ t := match agg t with
    | .id b => MatMat.setInsert b d
    | _ => d

/-- State of `examine`: flags and the finished rows. -/
structure ConSt where
  mark : Nat → Bool
  rows : List (List Nat)

/-- `constructNonOverlapConnectivity(row, graph, visitedMap, aggregates, seed)`. dune/istl/paamg/galerkin.hh:312-329. -/
def constructConn (G : Graph) (fuel : Nat) (agg : Nat → Agg) (seed a : Nat) (mark : Nat → Bool) :
    Option ((Nat → Bool) × List Nat) :=
  (bfs G (connVisitor agg) true false fuel seed (agg seed) ⟨[], mark, MatMat.setInsert a []⟩).map fun r => (r.1.mark, r.1.data)

/-- Loop body of `ConnectivityConstructor<G,SequentialInformation>::examine`. Writing to a row past the last one, or inserting an
`UNAGGREGATED` index, is undefined. dune/istl/paamg/galerkin.hh:503-507. -/
def examineStep (G : Graph) (fuel : Nat) (agg : Nat → Agg) (size : Nat) (s : ConSt) (v : Nat) : Option (Res ConSt) :=
  if s.mark v = true then some (.ok s)
  else match agg v with
    | .id a =>
      if s.rows.length < size then
        (constructConn G fuel agg v a s.mark).map fun r => .ok ⟨r.1, s.rows ++ [r.2]⟩
      else some .ub
    | _ => some .ub

/-- The loop over all vertices. dune/istl/paamg/galerkin.hh:502-508. -/
def examineLoop (G : Graph) (fuel : Nat) (agg : Nat → Agg) (size : Nat) : List Nat → ConSt → Option (Res ConSt)
  | [], s => some (.ok s)
  | v :: vs, s =>
    match examineStep G fuel agg size s v with
    | some (.ok s') => examineLoop G fuel agg size vs s'
    | r => r

/-- `GalerkinProduct<SequentialInformation>::build(...)`: isolated vertices count as visited; the result is the row-wise built
coarse matrix, here the list of the column sets of its rows. dune/istl/paamg/galerkin.hh:609-639. -/
def buildPattern (G : Graph) (fuel : Nat) (agg : Nat → Agg) (size : Nat) : Option (Res (List (List Nat))) :=
  (examineLoop G fuel agg size (List.range G.n) ⟨fun v => decide (agg v = .iso), []⟩).map fun r => r >>= fun s => .ok s.rows

/-- The matrix with the given column sets; the stored values are uninitialised (`junk`). dune/istl/paamg/galerkin.hh:618. -/
def patternMat (size : Nat) (rows : List (List Nat)) (junk : B) : SpMat B :=
  ⟨size, size, fun i => (rows.getD i []).map fun c => (c, junk)⟩

end Amg
end Istl

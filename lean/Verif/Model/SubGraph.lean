import Verif.Model.Graph
import Mathlib.Data.List.Sort

/-!
# Subgraphs without the excluded vertices

dune/istl/paamg/graph.hh (`SubGraph`) and dune/istl/paamg/graphcreator.hh. The arrays `start_`, `end_`, `edges_` are lists of
cells; a cell that has not been written is `none` and must not be read. `noEdges_` is a member that may stay uninitialised.
Pointers into `edges_` are offsets from its start. `std::sort` and `std::lower_bound` are taken by their contract.
Not modelled: `maxVertex()`, `decrement`/`advance` of the iterators.
-/

namespace Istl
namespace Amg

/-- Reading a cell: an unwritten one must not be read. Part of the memory model. -/
def rdCell {α : Type} (l : List (Option α)) (i : Nat) : Res α := do
  match (← rd l i) with
  | some x => .ok x
  | none => .ub

/-- Members of `SubGraph` (the flags are a reference to the caller's). dune/istl/paamg/graph.hh:692-711. -/
structure SubGraph where
  excluded : List Bool
  noVertices : Nat
  endVertex : Nat
  noEdges : Option Nat
  edges : List (Option Nat)
  start : List (Option Int)
  stop : List (Option Int)

/-- The variables of the loop in the constructor: the members and the pointer `edge`. dune/istl/paamg/graph.hh:1985-2003. -/
structure SubSt where
  noVertices : Nat
  endVertex : Nat
  edges : List (Option Nat)
  start : List (Option Int)
  stop : List (Option Int)
  edge : Nat

/-- Body of the loop over the edges of a vertex: an edge to a vertex that is not excluded is stored.
dune/istl/paamg/graph.hh:2010-2014. -/
def copyEdge (ex : List Bool) (s : List (Option Nat) × Nat) (t : Nat) : Res (List (Option Nat) × Nat) := do
  let x ← rd ex t
  if x then .ok s
  else do
    let edges ← wr s.1 s.2 (some t)
    .ok (edges, s.2 + 1)

/-- `std::sort(edges_+a, edges_+b)` on written cells. dune/istl/paamg/graph.hh:2019. -/
def sortCells (edges : List (Option Nat)) (a b : Nat) : List (Option Nat) :=
  edges.take a ++ (((edges.drop a).take (b - a)).filterMap id |>.insertionSort (· ≤ ·)).map some ++ edges.drop b

/-- Body of the loop over the vertices. dune/istl/paamg/graph.hh:1998-2020. -/
def subVertex (G : Graph) (ex : List Bool) (s : SubSt) (v : Nat) : Res SubSt := do
  let x ← rd ex v
  if x then do
    let stop ← wr s.stop v (some (-1))
    let start ← wr s.start v (some (-1))
    .ok { s with start := start, stop := stop }
  else do
    let start ← wr s.start v (some (s.edge : Int))
    let r ← (G.adj v).foldlM (copyEdge ex) (s.edges, s.edge)
    let stop ← wr s.stop v (some (r.2 : Int))
    .ok ⟨s.noVertices + 1, max v s.endVertex, sortCells r.1 s.edge r.2, start, stop, r.2⟩

/-- `SubGraph(graph, excluded)`, where `noEdges` is `graph.noEdges()`. dune/istl/paamg/graph.hh:1981-2023. -/
def mkSubGraph (G : Graph) (noEdges : Nat) (ex : List Bool) : Res SubGraph :=
  if G.n = 0 then
    .ok ⟨ex, 0, 0, none, List.replicate noEdges none, List.replicate G.n none, List.replicate G.n none⟩
  else do
    let s ← (List.range G.n).foldlM (subVertex G ex)
      ⟨0, 0, List.replicate noEdges none, List.replicate G.n none, List.replicate G.n none, 0⟩
    .ok ⟨ex, s.noVertices, s.endVertex + 1, some s.edge, s.edges, s.start, s.stop⟩

/-- `noEdges()`: reads the member. dune/istl/paamg/graph.hh:1957-1960. -/
def SubGraph.numEdges (S : SubGraph) : Res Nat :=
  match S.noEdges with
  | some k => .ok k
  | none => .ub

/-- The loop of the constructor of the vertex iterator: `vertex` runs over the flags, `current_` over the vertices.
dune/istl/paamg/graph.hh:1870-1873. -/
def ctorSkip (ex : List Bool) (stop pos current : Nat) : Res Nat :=
  if current = stop then .ok current
  else if h : pos < ex.length then
    if ex[pos] then ctorSkip ex stop (pos + 1) (current + 1) else .ok current
  else .ub
termination_by ex.length - pos

/-- The loop of `increment()`. dune/istl/paamg/graph.hh:1887-1888. -/
def incSkip (ex : List Bool) (stop current : Nat) : Res Nat :=
  if current = stop then .ok current
  else if h : current < ex.length then
    if ex[current] then incSkip ex stop (current + 1) else .ok current
  else .ub
termination_by ex.length - current

/-- `begin()`. dune/istl/paamg/graph.hh:1919-1922. -/
def SubGraph.beginV (S : SubGraph) : Res Nat := ctorSkip S.excluded S.endVertex 0 0

/-- `increment()` of the vertex iterator. dune/istl/paamg/graph.hh:1883-1892. -/
def SubGraph.nextV (S : SubGraph) (v : Nat) : Res Nat := incSkip S.excluded S.endVertex (v + 1)

/-- The vertices seen by `for(; vertex != end(); ++vertex)`; `none` means that the loop still runs.
dune/istl/paamg/graph.hh:1894-1898, 1926-1929 (`equals`, `end`). -/
def SubGraph.walkV (S : SubGraph) : Nat → Nat → Option (Res (List Nat))
  | 0, _ => none
  | fuel + 1, v =>
    if v = S.endVertex then some (.ok [])
    else match S.nextV v with
      | .ok w => (S.walkV fuel w).map fun r => r >>= fun l => .ok (v :: l)
      | .throw e => some (.throw e)
      | .ub => some .ub

/-- `for(auto vertex = graph.begin(); vertex != graph.end(); ++vertex)`. dune/istl/paamg/graph.hh:1919-1929. -/
def SubGraph.vertices (S : SubGraph) (fuel : Nat) : Option (Res (List Nat)) :=
  match S.beginV with
  | .ok v => S.walkV fuel v
  | .throw e => some (.throw e)
  | .ub => some .ub

/-- Targets and offsets of the edges from offset `a`, `k` of them. dune/istl/paamg/graph.hh:1821-1824, 1841-1851. -/
def walkEdges (edges : List (Option Nat)) : Nat → Nat → Res (List (Nat × Nat))
  | _, 0 => .ok []
  | a, k + 1 => do
    let t ← rdCell edges a
    let l ← walkEdges edges (a + 1) k
    .ok ((t, a) :: l)

/-- `for(auto edge = beginEdges(v); edge != endEdges(v); ++edge)`: targets and indices of the edges (the index map subtracts
`edges_`). A range that does not start in the array must be empty. dune/istl/paamg/graph.hh:481-485, 1933-1942. -/
def SubGraph.edgesOf (S : SubGraph) (v : Nat) : Res (List (Nat × Nat)) := do
  let a ← rdCell S.start v
  let b ← rdCell S.stop v
  if a = b then .ok []
  else if 0 ≤ a ∧ a ≤ b then walkEdges S.edges a.toNat (b - a).toNat
  else .ub

/-- `std::lower_bound` on `k` cells from offset `a`: the first offset whose value is not less than the target, given that the
range is sorted. dune/istl/paamg/graph.hh:1966. -/
def lowerBound (edges : List (Option Nat)) (target : Nat) : Nat → Nat → Res Nat
  | a, 0 => .ok a
  | a, k + 1 => do
    let t ← rdCell edges a
    if t < target then lowerBound edges target (a + 1) k else .ok a

/-- `findEdge(source, target)`: the index of the edge; `none` is the null pointer (the primary template of `numeric_limits`).
dune/istl/paamg/graph.hh:1963-1971. -/
def SubGraph.findEdge (S : SubGraph) (source target : Nat) : Res (Option Nat) := do
  let a ← rdCell S.start source
  let b ← rdCell S.stop source
  if a = b then .ok none
  else if 0 ≤ a ∧ a ≤ b then do
    let e ← lowerBound S.edges target a.toNat (b - a).toNat
    if (e : Int) = b then .ok none
    else do
      let t ← rdCell S.edges e
      if t ≠ target then .ok none else .ok (some e)
  else .ub

/-- The flags set by `PropertiesGraphCreator::create`: every index of the index set (here its local index and whether its
attribute belongs to the overlap flags) sets one flag. dune/istl/paamg/graphcreator.hh:45-46. -/
def excludeFlags (ex : List Bool) (idx : List (Nat × Bool)) : Res (List Bool) :=
  idx.foldlM (fun ex i => wr ex i.1 i.2) ex

end Amg
end Istl

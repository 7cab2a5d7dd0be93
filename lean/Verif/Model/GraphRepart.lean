import Verif.Model.Repartition

/-!
# Preparing the graph for the partitioner

dune/istl/repartition.hh: `fillIndexSetHoles`, `ParmetisDuneIndexMap`, `getAdjArrays` with `BaseEdgeFunctor`. MPI collectives are modelled by
their contract, the communication of `OwnerOverlapCopyCommunication` as in `Model/Parallel`. Numbers are natural numbers without overflow;
the entry `-1` is `none`. Vertices are visited in ascending order (contract of the graphs of graph.hh). The weights of the edges are not
modelled. `storeGlobalIndicesOfRemoteIndices` and `repairLocalIndexPointers` keep the remote indices consistent with the resized index set
(dune-common); here the interfaces are functions of the index sets.
-/

namespace Istl
namespace Par
open Amg

/-! ## Filling the holes of the index set -/

/-- `needed`: vertices without an index. The index set has at most as many entries as there are vertices (distinct local indices), so
the unsigned difference does not wrap. dune/istl/repartition.hh:91. -/
def needed (n : Nat) (A : PIS) : Nat := n - A.length

/-- The largest global index of a process, starting from 0. dune/istl/repartition.hh:103-106. -/
def maxGlobal (A : PIS) : Nat := A.foldl (fun m e => max m e.g) 0

/-- One vertex: without an entry it gets the next free index. dune/istl/repartition.hh:122-129. -/
def fillVertex (A : PIS) (s : Nat × PIS) (v : Nat) : Nat × PIS :=
  match pairOf A v with
  | none => (s.1 + 1, s.2 ++ [⟨s.1, v, .owner⟩])
  | some _ => s

/-- The first free global index of process `q`: above all indices, and leaving room for the processes before.
dune/istl/repartition.hh:103-115. -/
def fillStart (P : Nat) (n : Nat → Nat) (pis : Nat → PIS) (q : Nat) : Nat :=
  ((List.range P).map fun p => maxGlobal (pis p)).foldl max 0 + 1 + (((List.range P).map fun p => needed (n p) (pis p)).take q).sum

/-- `fillIndexSetHoles(graph, oocomm)` on process `q`. dune/istl/repartition.hh:83-141. -/
def fillIndexSetHoles (P : Nat) (n : Nat → Nat) (pis : Nat → PIS) (q : Nat) : PIS :=
  if ((List.range P).map fun p => needed (n p) (pis p)).sum = 0 then pis q
  else (pis q ++ ((List.range (n q)).foldl (fillVertex (pis q)) (fillStart P n pis q, [])).2).insertionSort idxLe

/-! ## Consecutive numbers for the partitioner -/

/-- `numOfOwnVtx`. dune/istl/repartition.hh:192-198. -/
def numOwn (A : PIS) : Nat := A.foldl (fun c e => if e.attr = .owner then c + 1 else c) 0

/-- `globalNumOfVtx`. dune/istl/repartition.hh:200-202. -/
def globalNum (P : Nat) (pis : Nat → PIS) : List Nat := (List.range P).map fun p => numOwn (pis p)

/-- `vtxDist_`. dune/istl/repartition.hh:204-211. -/
def vtxDist (P : Nat) (pis : Nat → PIS) : List Nat := displs (globalNum P pis)

/-- `parmetisToDune` and `duneToParmetis`. dune/istl/repartition.hh:178-179. -/
structure IdxMap where
  toDune : List Nat
  toPar : List (Option Nat)
  deriving DecidableEq

/-- One vertex of the loop: an owned one gets the next number. dune/istl/repartition.hh:227-235. -/
def mapStep (A : PIS) (base : Nat) (s : Nat × IdxMap) (v : Nat) : Res (Nat × IdxMap) :=
  match pairOf A v with
  | none => .ub
  | some e =>
    if e.attr = .owner then do
      let d ← wr s.2.toDune (s.1 - base) e.loc
      let t ← wr s.2.toPar e.loc (some s.1)
      .ok (s.1 + 1, ⟨d, t⟩)
    else .ok s

/-- The constructor of `ParmetisDuneIndexMap` up to the communication. dune/istl/repartition.hh:185-235. -/
def localMap (P : Nat) (n : Nat → Nat) (pis : Nat → PIS) (q : Nat) : Res IdxMap := do
  let base := ((globalNum P pis).take q).sum
  let s ← (List.range (n q)).foldlM (mapStep (pis q) base) (base, ⟨List.replicate (numOwn (pis q)) 0, List.replicate (n q) none⟩)
  .ok s.2

/-- The vectors `duneToParmetis` of all processes as functions. -/
def tableOf (ms : List IdxMap) (p i : Nat) : Option Nat :=
  match ms[p]? with
  | none => none
  | some m => match m.toPar[i]? with
    | none => none
    | some x => x

/-- The constructor of `ParmetisDuneIndexMap` on process `q`: after the local part the numbers are sent to the other processes.
dune/istl/repartition.hh:185-255. -/
def indexMap (P : Nat) (n : Nat → Nat) (pis : Nat → PIS) (q : Nat) (order : List Nat) : Res IdxMap := do
  let ms ← (List.range P).mapM (localMap P n pis)
  let m ← localMap P n pis q
  .ok ⟨m.toDune, (List.range (n q)).map (copyOwnerToAll pis (tableOf ms) (tableOf ms) q order)⟩

/-! ## Adjacency arrays -/

/-- The arrays and the two running indices. dune/istl/repartition.hh:641-666, 729-744. -/
structure Adj where
  j : Nat
  i : Nat
  xadj : List Nat
  adjncy : List (Option Nat)
  deriving DecidableEq

/-- `BaseEdgeFunctor::operator()(edge)`. dune/istl/repartition.hh:649-655. -/
def edgeStep (toPar : List (Option Nat)) (s : Adj) (t : Nat) : Res Adj := do
  let x ← rd toPar t
  let a ← wr s.adjncy s.i x
  .ok { s with i := s.i + 1, adjncy := a }

/-- One vertex of `getAdjArrays`. dune/istl/repartition.hh:733-743, 632-638. -/
def adjStep (A : PIS) (g : Graph) (toPar : List (Option Nat)) (s : Adj) (v : Nat) : Res Adj :=
  match pairOf A v with
  | none => .ub
  | some e =>
    if e.attr = .owner then do
      let x ← wr s.xadj s.j s.i
      (g.adj v).foldlM (edgeStep toPar) { s with j := s.j + 1, xadj := x }
    else .ok s

/-- `getAdjArrays(graph, indexSet, xadj, ew)` with arrays of the sizes `numOfOwnVtx()+1` and `graph.noEdges()`; their initial values are
indeterminate. dune/istl/repartition.hh:727-745, 1295-1298. -/
def getAdjArrays (A : PIS) (g : Graph) (m : IdxMap) (xadj : List Nat) (adjncy : List (Option Nat)) : Res (List Nat × List (Option Nat)) := do
  let s ← (List.range g.n).foldlM (adjStep A g m.toPar) ⟨0, 0, xadj, adjncy⟩
  let x ← wr s.xadj s.j s.i
  .ok (x, s.adjncy)

end Par
end Istl

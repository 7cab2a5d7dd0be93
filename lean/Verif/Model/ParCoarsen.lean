import Verif.Model.Graph
import Verif.Model.Parallel
import Mathlib.Data.List.Sort

/-!
# Coarsening on several processes: index sets, remote indices, publishing of the aggregate numbers

dune/istl/paamg/graphcreator.hh, dune/istl/paamg/graph.hh (`SubGraph`), dune/istl/paamg/indicescoarsener.hh
(`ParallelIndicesCoarsener`), dune/istl/paamg/globalaggregates.hh (`AggregatesPublisher`).

The flags of `OverlapFlags` (= `ExcludedAttributes`) are those of `NegateSet<OwnerSet>`, with which the AMG instantiates the
hierarchy: everything but `owner`. The largest global index, used as a marker, is the value `none` here. Classes of dune-common are
modelled by their contract: `ParallelIndexSet` (ordered by global index after `endResize`), `RemoteIndices` (for each other process the
list of shared indices with the attribute there), `IndicesSyncer` (below).
-/

namespace Istl
namespace Amg
open Par

/-! ## The graph of the owned vertices -/

/-- `OverlapFlags::contains(attribute)`. dune/istl/paamg/amg.hh:699 (`NegateSet<typename PI::OwnerSet>`). -/
def notOwner (a : Attr) : Bool := !isOwner a

/-- The flags of the excluded vertices, all false before. dune/istl/paamg/graphcreator.hh:45-46. -/
def exclInit (A : PIS) : Nat → Bool := A.foldl (fun m e => upd m e.loc (notOwner e.attr)) fun _ => false

/-- The vertices of `SubGraph`, in the order of its iterator. dune/istl/paamg/graph.hh:1862-1892, 1919-1929. -/
def subVerts (n : Nat) (excl : Nat → Bool) : List Nat := (List.range n).filter fun v => !excl v

/-- `SubGraph(graph, excluded)`: the edges between vertices that are not excluded, ordered by their target.
dune/istl/paamg/graph.hh:1982-2023. -/
def subGraph (G : Graph) (excl : Nat → Bool) : Graph :=
  ⟨G.n, fun u => if excl u then [] else ((G.adj u).filter fun t => !excl t).insertionSort (· ≤ ·)⟩

/-! ## The coarse index set of a process -/

/-- `GlobalLookupIndexSet::pair(local)`: the entry of a local index (contract of dune-common). -/
def pairOf (A : PIS) (v : Nat) : Option Idx := A.find? fun e => e.loc = v

/-- The aggregates map together with the members of `ParallelAggregateRenumberer` other than the number; the attribute is not
initialised by the constructor. dune/istl/paamg/indicescoarsener.hh:115-118, 176-179. -/
structure PRen where
  agg : Nat → Agg
  glob : Option Nat
  attr : Option Attr
  pub : Bool

/-- Take over global index, attribute and public flag of a vertex of the index set.
dune/istl/paamg/indicescoarsener.hh:124-129, 283-295. -/
def PRen.note (A : PIS) (pub : Nat → Bool) (v : Nat) (d : PRen) : PRen :=
  match pairOf A v with
  | none => d
  | some e => { d with glob := some e.g, attr := some e.attr, pub := d.pub || pub e.loc }

/-- `ParallelAggregateRenumberer::operator()(edge)` as a visitor; the other edges go to a dummy.
dune/istl/paamg/indicescoarsener.hh:121-130. -/
def parVisitor (A : PIS) (pub : Nat → Bool) (number : Nat) : Visitor PRen where
  agg d := d.agg
  inner d _ t := PRen.note A pub t { d with agg := upd d.agg t (.id number) }
  outer d _ _ := d

/-- State of the loop: aggregates map, visited flags, next number, attribute kept in the renumberer, entries added to the coarse
index set, with their public flags. -/
structure CoSt where
  agg : Nat → Agg
  mark : Nat → Bool
  number : Nat
  attr : Option Attr
  added : List (Idx × Bool)

/-- Loop body of `buildCoarseIndexSet`. dune/istl/paamg/indicescoarsener.hh:276-311. -/
def coarsenStep (G : Graph) (A : PIS) (pub : Nat → Bool) (fuel : Nat) (s : CoSt) (v : Nat) : Option (Res CoSt) :=
  if s.agg v ≠ .iso ∧ s.mark v = false then
    (bfs G (parVisitor A pub s.number) true false fuel v (s.agg v)
      ⟨[], s.mark, PRen.note A pub v ⟨s.agg, none, s.attr, false⟩⟩).map fun r =>
      let d := r.1.data
      let s' (added : List (Idx × Bool)) : CoSt := ⟨upd d.agg v (.id s.number), r.1.mark, s.number + 1, d.attr, added⟩
      match d.glob, d.attr with
      | none, _ => .ok (s' s.added)
      | some g, some a => .ok (s' (s.added ++ [(⟨g, s.number, a⟩, d.pub)]))
      | some _, none => .ub
  else some (.ok s)

/-- The loop over the vertices of the graph. dune/istl/paamg/indicescoarsener.hh:275-312. -/
def coarsenLoop (G : Graph) (A : PIS) (pub : Nat → Bool) (fuel : Nat) (vs : List Nat) (s : CoSt) : Option (Res CoSt) :=
  vs.foldl (fun r v => match r with
    | some (.ok s) => coarsenStep G A pub fuel s v
    | o => o) (some (.ok s))

/-- Order by global index (`ParallelIndexSet::endResize`, contract of dune-common). -/
def sortG (L : PIS) : PIS := L.insertionSort fun a b => a.g ≤ b.g

/-- The coarse index set after `endResize`. dune/istl/paamg/indicescoarsener.hh:314. -/
def CoSt.indices (s : CoSt) : PIS := sortG (s.added.map Prod.fst)

/-- `buildCoarseIndexSet` on a process with index set `A`, matrix graph `G` and aggregates map `agg`; the visited flags are reset at
the end. dune/istl/paamg/indicescoarsener.hh:253-321. -/
def buildCoarse (G : Graph) (A : PIS) (pub : Nat → Bool) (fuel : Nat) (agg : Nat → Agg) : Option (Res CoSt) :=
  (coarsenLoop (subGraph G (exclInit A)) A pub fuel (subVerts G.n (exclInit A)) ⟨agg, fun _ => false, 0, none, []⟩).map fun r => do
    let s ← r
    .ok { s with mark := (subVerts G.n (exclInit A)).foldl (fun m v => upd m v false) s.mark }

/-! ## The remote indices of the coarse level -/

/-- The remote index list for a neighbour with index set `B`: the shared indices with the attribute there (contract of
`RemoteIndices` of dune-common). -/
def remoteList (A B : PIS) : List (Idx × Attr) := A.filterMap fun e => (lookup B e.g).map fun r => (e, r.attr)

/-- The attributes of the aggregates on the other process; `none` is the largest `char`.
dune/istl/paamg/indicescoarsener.hh:332, 345-363. -/
def coarseAttrs (number : Nat) (agg : Nat → Agg) (R : List (Idx × Attr)) : Res (List (Option Attr)) :=
  R.foldlM (fun L r =>
    if notOwner r.1.attr = false ∧ agg r.1.loc ≠ .iso then do
      let a ← (agg r.1.loc).index
      let old ← rd L a
      if old ≠ some .copy then wr L a (some r.2) else .ok L
    else .ok L) (List.replicate number none)

/-- The remote index list of the coarse level for one neighbour. dune/istl/paamg/indicescoarsener.hh:339-379. -/
def coarseRemote (number : Nat) (agg : Nat → Agg) (R : List (Idx × Attr)) (C : PIS) : Res (List (Idx × Attr)) := do
  let L ← coarseAttrs number agg R
  C.foldlM (fun l e => do
    let a ← rd L e.loc
    match a with
    | none => .ok l
    | some t => .ok (l ++ [(e, t)])) []

/-- `IndicesSyncer::sync` for one index another process knows to be present here: an index missing in the local index set is added
with the next number. Contract of dune-common; called at dune/istl/paamg/indicescoarsener.hh:386-387, the numbers are given by
dune/istl/paamg/indicescoarsener.hh:132-137. -/
def syncStep (st : PIS × Nat) (m : Idx × Attr) : PIS × Nat :=
  match lookup st.1 m.1.g with
  | some _ => st
  | none => (st.1 ++ [⟨m.1.g, st.2, m.2⟩], st.2 + 1)

/-- `syncer.sync(renumberer, useFixedOrder)` on one process: `msgs` are the lists the other processes hold for this one, in the order
of arrival. Contract of dune-common; dune/istl/paamg/indicescoarsener.hh:384-387. -/
def sync (C : PIS) (number : Nat) (msgs : List (List (Idx × Attr))) : PIS × Nat :=
  let r := msgs.flatten.foldl syncStep (C, number)
  (sortG r.1, r.2)

/-! ## Publishing the aggregates -/

/-- `GlobalAggregatesMap::operator[](index) const`: the global index of the aggregate, `none` is `isolatedMarker` (also for
`UNAGGREGATED` without assertions). dune/istl/paamg/globalaggregates.hh:46-57. -/
def aggGather (C : PIS) : Agg → Res (Option Nat)
  | .id a => match pairOf C a with
    | some e => .ok (some e.g)
    | none => .ub
  | _ => .ok none

/-- `Proxy::operator=(global)`: the local number of the aggregate. `operator[]` of the index set needs an index that is there.
dune/istl/paamg/globalaggregates.hh:76-85. -/
def aggScatter (C : PIS) : Option Nat → Res Agg
  | none => .ok .iso
  | some g => match lookup C g with
    | some e => .ok (.id e.loc)
    | none => .ub

/-- The communication of the map on process `q`: `pis` are the fine index sets, `C` the coarse ones, `agg` the maps.
dune/istl/paamg/globalaggregates.hh:113-127, 172-177. -/
def forwardAgg (src dst : Attr → Bool) (pis C : Nat → PIS) (agg : Nat → Nat → Agg) (q : Nat) (order : List Nat) : Res (Nat → Agg) :=
  order.foldlM (fun d p => do
    let msg ← (sendList src dst (pis p) (pis q)).mapM fun i => aggGather (C p) (agg p i)
    (msg.zip (recvList src dst (pis q) (pis p))).foldlM (fun d m => do
      let a ← aggScatter (C q) m.1
      .ok (upd d m.2 a)) d) (agg q)

/-- `pinfo.copyOwnerToAll(gmap,gmap)`. dune/istl/paamg/globalaggregates.hh:171-173. -/
def publishOwner (pis C : Nat → PIS) (agg : Nat → Nat → Agg) (q : Nat) (order : List Nat) : Res (Nat → Agg) :=
  forwardAgg isOwner isAll pis C agg q order

/-- `pinfo.copyCopyToAll(gmap,gmap)`, for the category `nonoverlapping`. dune/istl/paamg/globalaggregates.hh:174-177. -/
def publishCopy (pis C : Nat → PIS) (agg : Nat → Nat → Agg) (q : Nat) (order : List Nat) : Res (Nat → Agg) :=
  forwardAgg isCopy isAll pis C agg q order

/-! ## Periodic boundaries: indices shared with the own process -/

/-- `std::numeric_limits<Vertex>::max()+1` for the vertex type `std::size_t`. -/
def vtop : Nat := 2 ^ 64

/-- `ISOLATED` as a number. dune/istl/paamg/aggregates.hh:1672. -/
def isoNum : Nat := vtop - 2

/-- `newMapping`: the aggregate numbers at the given vertices, ascending (`std::map`), each with the next number after the largest one
of the whole map. dune/istl/paamg/globalaggregates.hh:186-206. -/
def newMapping (agg : List Nat) (verts : List Nat) : Res (List (Nat × Nat)) := do
  let keys ← verts.mapM fun v => rd agg v
  let mx := agg.foldl max 0
  let ks := keys.dedup.insertionSort (· ≤ ·)
  .ok (ks.zip ((List.range ks.length).map fun i => (mx + 1 + i) % vtop))

/-- `newMapping[key]`: value-initialised if missing. dune/istl/paamg/globalaggregates.hh:212-213. -/
def mapGet (m : List (Nat × Nat)) (k : Nat) : Nat := match m.lookup k with
  | some v => v
  | none => 0

/-- The renumbering of the aggregates of the vertices `verts`, the entries with a flag of `O` of the remote index list of the own
process. dune/istl/paamg/globalaggregates.hh:179-214. -/
def renumberOwn (agg : List Nat) (verts : List Nat) : Res (List Nat) := do
  let m ← newMapping agg verts
  verts.foldlM (fun agg v => do
    let a ← rd agg v
    wr agg v (mapGet m a)) agg

end Amg
end Istl

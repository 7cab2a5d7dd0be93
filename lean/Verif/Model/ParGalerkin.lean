import Verif.Model.ParCoarsen

/-!
# The coarse matrix on several processes: dune/istl/paamg/galerkin.hh, `GalerkinProduct<T>`, `ConnectivityConstructor<G,T>`

The overlap vertices are ordered with `std::sort`, which leaves the order within an aggregate open: the functions below get the ordered
list as an argument. The checks under `DUNE_ISTL_WITH_CHECKING` and the assertions are left out.
-/

namespace Istl
namespace Amg
open Par MatMat

/-- `*o1.aggregate < *o2.aggregate` or equal; `ISOLATED` and `UNAGGREGATED` are the two largest numbers.
dune/istl/paamg/galerkin.hh:152-159, dune/istl/paamg/aggregates.hh:1668-1672. -/
def aggLe : Agg → Agg → Prop
  | .id a, .id b => a ≤ b
  | .id _, _ => True
  | .iso, .id _ => False
  | .iso, _ => True
  | .unagg, .unagg => True
  | .unagg, _ => False

instance : DecidableRel aggLe := fun a b => by cases a <;> cases b <;> (unfold aggLe; infer_instance)

/-- `pair!=0 && overlap.contains(pair->local().attribute())`. dune/istl/paamg/galerkin.hh:386-388, 403, 447-448. -/
def inOverlap (A : PIS) (v : Nat) : Bool := match pairOf A v with
  | some e => notOwner e.attr
  | none => false

/-- The overlap vertices in the order of the graph, before sorting: the vertices with an entry in the index set whose attribute is in
the set `overlap`. dune/istl/paamg/galerkin.hh:371-408. -/
def overlapVerts (A : PIS) (n : Nat) : List Nat := (List.range n).filter (inOverlap A)

/-- What `std::sort(overlapVertices, overlapVertices+overlapCount, OVLess())` can give. dune/istl/paamg/galerkin.hh:412. -/
def Sorted (A : PIS) (n : Nat) (agg : Nat → Agg) (ov : List Nat) : Prop :=
  ov.Perm (overlapVerts A n) ∧ ov.Pairwise fun u v => aggLe (agg u) (agg v)

/-- State of `examine`: flags, finished rows, columns of the current row, remaining overlap vertices. -/
structure PConSt where
  mark : Nat → Bool
  rows : List (List Nat)
  cur : List Nat
  seeds : List Nat

/-- `visitNeighbours(graph, vertex, conBuilder)`. dune/istl/paamg/graph.hh:2374-2382, dune/istl/paamg/galerkin.hh:359-365. -/
def visitNeighbours (G : Graph) (agg : Nat → Agg) (u : Nat) (cur : List Nat) : List Nat :=
  (G.adj u).foldl (fun d t => (connVisitor agg).outer d u t) cur

/-- The loop over the overlap vertices of the aggregate `a`. dune/istl/paamg/galerkin.hh:340-347. -/
def overlapLoop (G : Graph) (agg : Nat → Agg) (a : Nat) : List Nat → PConSt → PConSt
  | [], s => { s with seeds := [] }
  | v :: vs, s =>
    if agg v = .id a then
      overlapLoop G agg a vs { s with cur := visitNeighbours G agg v (setInsert a s.cur), mark := upd s.mark v true }
    else { s with seeds := v :: vs }

/-- `constructOverlapConnectivity(row, graph, visitedMap, aggregates, seed, overlapEnd)`: does nothing if the current row is not that of
the aggregate of the seed. Inserting into a row past the last one is undefined. dune/istl/paamg/galerkin.hh:330-349. -/
def constructOverlap (G : Graph) (agg : Nat → Agg) (size : Nat) (s : PConSt) : Res PConSt :=
  match s.seeds with
  | [] => .ub
  | v :: vs =>
    if agg v = .id s.rows.length then
      if s.rows.length < size then .ok (overlapLoop G agg s.rows.length (v :: vs) s) else .ub
    else .ok s

/-- `++row`. Advancing past the row behind the last one is undefined. dune/istl/paamg/galerkin.hh:538-549. -/
def nextRow (size : Nat) (s : PConSt) : Res PConSt :=
  if s.rows.length < size then .ok { s with rows := s.rows ++ [s.cur], cur := [] } else .ub

/-- What is done between the row of an owned aggregate and `++row` in the category `nonoverlapping`.
dune/istl/paamg/galerkin.hh:455-466. -/
def ghostStep (G : Graph) (agg : Nat → Agg) (size : Nat) (novlp : Bool) (s : PConSt) : Res PConSt :=
  if novlp then
    match s.seeds with
    | [] => .ok s
    | v :: vs => if agg v = .iso then .ok { s with seeds := vs } else constructOverlap G agg size s
  else .ok s

/-- Loop body of the first pass: only vertices that are not marked and not in the overlap.
dune/istl/paamg/galerkin.hh:444-469. -/
def ownStep (G : Graph) (fuel : Nat) (A : PIS) (agg : Nat → Agg) (size : Nat) (novlp : Bool) (s : PConSt) (v : Nat) :
    Option (Res PConSt) :=
  if s.mark v = true then some (.ok s)
  else if inOverlap A v = true then some (.ok s)
  else match agg v with
    | .id a =>
      if s.rows.length < size then
        (bfs G (connVisitor agg) true false fuel v (agg v) ⟨[], s.mark, setInsert a s.cur⟩).map fun r => do
          let s ← ghostStep G agg size novlp { s with mark := r.1.mark, cur := r.1.data }
          nextRow size s
      else some .ub
    | _ => some .ub

/-- The first pass. dune/istl/paamg/galerkin.hh:443-469. -/
def ownLoop (G : Graph) (fuel : Nat) (A : PIS) (agg : Nat → Agg) (size : Nat) (novlp : Bool) : List Nat → PConSt → Option (Res PConSt)
  | [], s => some (.ok s)
  | v :: vs, s =>
    match ownStep G fuel A agg size novlp s v with
    | some (.ok s') => ownLoop G fuel A agg size novlp vs s'
    | r => r

/-- The second pass: the rows of the aggregates of other processes. dune/istl/paamg/galerkin.hh:473-489. -/
def foreignLoop (G : Graph) (agg : Nat → Agg) (size : Nat) : Nat → PConSt → Option (Res PConSt)
  | 0, _ => none
  | fuel + 1, s =>
    match s.seeds with
    | [] => some (.ok s)
    | v :: vs =>
      if agg v = .iso then foreignLoop G agg size fuel { s with seeds := vs }
      else match (do let s ← constructOverlap G agg size s; nextRow size s : Res PConSt) with
        | .ok s' => foreignLoop G agg size fuel s'
        | r => some r

/-- `GalerkinProduct<T>::build(...)` on one process, with `ov` the sorted overlap vertices; the result is the list of the column sets
of the rows. dune/istl/paamg/galerkin.hh:560-608, 418-490. -/
def parBuild (G : Graph) (fuel : Nat) (A : PIS) (agg : Nat → Agg) (size : Nat) (novlp : Bool) (ov : List Nat) :
    Option (Res (List (List Nat))) :=
  match ownLoop G fuel A agg size novlp (List.range G.n) ⟨fun v => decide (agg v = .iso), [], [], ov⟩ with
  | some (.ok s) => (foreignLoop G agg size (ov.length + size + 1) s).map fun r => do
      let s ← r
      .ok s.rows
  | some (.throw e) => some (.throw e)
  | some .ub => some .ub
  | none => none

variable {B : Type}

/-- The diagonal of the sum before the communication, `rowsize`. dune/istl/paamg/galerkin.hh:645-667. -/
def galerkinDiag [Add B] [Zero B] (A : SpMat B) (agg : List Agg) (C : SpMat B) : Res (List B) := do
  let C ← forRangeM A.n (fun i C => galerkinRow agg i (A.row i) C) (zeroMat C)
  forRangeM C.n (fun i rs => getDiag C i rs) (List.replicate C.n 0)

/-- `pinfo.copyOwnerToAll(rowsize,rowsize)` as seen on process `q`, `rs` being the vectors of all processes and `C` the coarse index
sets, whose local indices are below the lengths. dune/istl/paamg/galerkin.hh:668, dune/istl/owneroverlapcopy.hh:308-317. -/
def exchangeDiag [Zero B] (C : Nat → PIS) (rs : Nat → List B) (q : Nat) (order : List Nat) : Res (List B) :=
  .ok ((List.range (rs q).length).map
    (copyOwnerToAll C (fun p i => (rs p).getD i 0) (fun p i => (rs p).getD i 0) q order))

/-- `calculate` on process `q` when the other processes send the diagonals `rs`. dune/istl/paamg/galerkin.hh:641-678. -/
def parCalculate [Add B] [Zero B] (C : Nat → PIS) (rs : Nat → List B) (q : Nat) (order : List Nat) (A : SpMat B) (agg : List Agg)
    (M : SpMat B) : Res (SpMat B) :=
  calculate (fun r => exchangeDiag C (upd rs q r) q order) A agg M

end Amg
end Istl

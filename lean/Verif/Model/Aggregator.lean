import Verif.Model.Graph
import Mathlib.Algebra.Field.Rat
import Mathlib.Algebra.Order.Ring.Rat

/-!
# Aggregation: dune/istl/paamg/aggregates.hh (`Aggregate`, `Aggregator::build`)

The vertex and edge properties computed by `buildDependency` from the matrix entries are parameters (`Props`), so that the model covers
every criterion. Arrays over vertices are total functions; all accesses are at vertices of the graph. `while` loops have a fuel
argument; `none` means that the loop still runs. The quotient in `connectivity` is exact; `0/0` (NaN) is `none`.
-/

namespace Istl
namespace Amg

/-- The parameters of the coarsening that the aggregation reads. dune/istl/paamg/parameters.hh:144-210. -/
structure Crit where
  minSize : Nat
  maxSize : Nat
  maxDistance : Nat
  maxConn : Nat
  skipIsolated : Bool

/-- The flags set by `buildDependency`: `isolated`, `excludedBorder` of vertices; `depends`, `influences` of edges.
dune/istl/paamg/aggregates.hh:1813-1868. -/
structure Props where
  isolated : Nat → Bool
  excluded : Nat → Bool
  dep : Nat → Nat → Bool
  infl : Nat → Nat → Bool

/-- The state of `Aggregator` and its `Aggregate`: the map, `front_`, the front flags, `vertices_` (ascending), `connected_`, `id_`.
dune/istl/paamg/aggregates.hh:806-935. -/
structure AgSt where
  agg : Nat → Agg
  front : List Nat
  flag : Nat → Bool
  verts : List Nat
  conn : List Agg
  id : Int

/-- `connected_.insert(x)`; only membership and the number of elements are used. dune/istl/paamg/aggregates.hh:1552, 1572, 1614. -/
def connInsert (x : Agg) (l : List Agg) : List Agg := if x ∈ l then l else x :: l

/-- Loop body over the edges in `add`. dune/istl/paamg/aggregates.hh:1571-1579, 1613-1620. -/
def addEdge (st : AgSt) (t : Nat) : AgSt :=
  if st.agg t = .unagg ∧ st.flag t = false then
    { st with conn := connInsert (st.agg t) st.conn, front := st.front ++ [t], flag := upd st.flag t true }
  else { st with conn := connInsert (st.agg t) st.conn }

/-- The value of `id_` stored in the map. -/
def AgSt.cur (st : AgSt) : Agg := .id st.id.toNat

/-- `front_.erase(std::lower_bound(front_.begin(), front_.end(), vertex))`; erasing the end iterator is undefined.
dune/istl/paamg/aggregates.hh:1565. -/
def eraseLower (v : Nat) (front : List Nat) : Res (List Nat) :=
  let p := (front.takeWhile (· < v)).length
  if p < front.length then .ok (front.eraseIdx p) else .ub

/-- `std::sort`. dune/istl/paamg/aggregates.hh:1582, 1625. -/
def sortFront (l : List Nat) : List Nat := l.mergeSort (fun a b => decide (a ≤ b))

/-- The part of `add(vertex)` between the update of the front and the sort. dune/istl/paamg/aggregates.hh:1568-1580. -/
def absorb (G : Graph) (v : Nat) (st : AgSt) : AgSt := (G.adj v).foldl addEdge st

/-- `Aggregate::add(vertex)`. dune/istl/paamg/aggregates.hh:1560-1583. -/
def add1 (G : Graph) (v : Nat) (st : AgSt) : Res AgSt := do
  let front ← if st.front.length ≠ 0 then eraseLower v st.front else .ok st.front
  let st := absorb G v { st with verts := MatMat.setInsert v st.verts, agg := upd st.agg v st.cur, front := front }
  .ok { st with front := sortFront st.front }

/-- `Aggregate::seed(vertex)`. dune/istl/paamg/aggregates.hh:1547-1556. -/
def seed (G : Graph) (v : Nat) (st : AgSt) : Res AgSt :=
  add1 G v { st with conn := connInsert (.id v) [], verts := [], id := st.id + 1 }

/-- `std::set_difference` of two ascending ranges. dune/istl/paamg/aggregates.hh:1599-1600. -/
def setDifference : List Nat → List Nat → List Nat
  | [], _ => []
  | a :: as, [] => a :: as
  | a :: as, b :: bs =>
    if a < b then a :: setDifference as (b :: bs)
    else if b < a then setDifference (a :: as) bs
    else setDifference as bs
termination_by l r => l.length + r.length

/-- Loop body over the new vertices in `add(vertices)`. dune/istl/paamg/aggregates.hh:1603-1624. -/
def addStep (G : Graph) (st : AgSt) (v : Nat) : AgSt :=
  absorb G v { st with verts := MatMat.setInsert v st.verts, flag := upd st.flag v false, agg := upd st.agg v st.cur }

/-- `Aggregate::add(vertices)`. dune/istl/paamg/aggregates.hh:1586-1627. -/
def addMany (G : Graph) (vs : List Nat) (st : AgSt) : AgSt :=
  let st := vs.foldl (addStep G) { st with front := setDifference st.front vs }
  { st with front := sortFront st.front }

/-! ## The counters -/

/-- Number of edges of `v` satisfying a condition: `visitNeighbours` with a counter. dune/istl/paamg/graph.hh:2373-2383. -/
def countEdges (G : Graph) (v : Nat) (p : Nat → Bool) : Nat := ((G.adj v).filter p).length

/-- `twoWayConnections(vertex, aggregate, aggregates)`. dune/istl/paamg/aggregates.hh:1930-1944. -/
def twoWay (G : Graph) (P : Props) (st : AgSt) (v : Nat) (a : Agg) : Nat :=
  countEdges G v fun t => decide (st.agg t = a) && (P.dep v t && P.infl v t)

/-- `oneWayConnections(vertex, aggregate, aggregates)`. dune/istl/paamg/aggregates.hh:1946-1961. -/
def oneWay (G : Graph) (P : Props) (st : AgSt) (v : Nat) (a : Agg) : Nat :=
  countEdges G v fun t => decide (st.agg t = a) && (P.dep v t && !P.infl v t)

/-- `connectivity(vertex, aggregates)`; `none` is NaN. dune/istl/paamg/aggregates.hh:1963-1987. -/
def connectivity (G : Graph) (st : AgSt) (v : Nat) : Option ℚ :=
  if (G.adj v).length = 0 then none
  else some ((((G.adj v).map fun t => if st.agg t ∉ st.conn ∨ st.agg t = .unagg then 1 else 2).sum : Nat) / ((G.adj v).length : ℚ))

/-- Comparison `a == b` of doubles, false for NaN. -/
def conEq : Option ℚ → Option ℚ → Bool
  | some a, some b => decide (a = b)
  | _, _ => false

/-- Comparison `a > b` of doubles, false for NaN. -/
def conGt : Option ℚ → Option ℚ → Bool
  | some a, some b => decide (b < a)
  | _, _ => false

/-- `neighbours(vertex, aggregate, aggregates)`. dune/istl/paamg/aggregates.hh:1994-2020. -/
def neighbours (G : Graph) (P : Props) (st : AgSt) (v : Nat) (a : Agg) : Nat × Nat :=
  let w := fun t => (if P.dep v t then 1 else 0) + (if P.infl v t then 1 else 0)
  ((((G.adj v).filter fun t => decide (st.agg t = .unagg)).map w).sum, (((G.adj v).filter fun t => decide (st.agg t = a)).map w).sum)

/-- `distance(vertex, aggregates)` returns 0 before its code. dune/istl/paamg/aggregates.hh:2031-2034. -/
def distance (_ : Nat) : Nat := 0

/-- `admissible(...)` returns true before its code. dune/istl/paamg/aggregates.hh:2060-2064. -/
def admissible (_ : Nat) : Bool := true

/-- `noFrontNeighbours(vertex)`. dune/istl/paamg/aggregates.hh:2191-2204. -/
def noFrontNeighbours (G : Graph) (st : AgSt) (v : Nat) : Nat := countEdges G v st.flag

/-- `unmarkFront()`. dune/istl/paamg/aggregates.hh:2140-2149. -/
def unmarkFront (st : AgSt) : AgSt :=
  { st with flag := st.front.foldl (fun m v => upd m v false) st.flag, front := [] }

/-- `nonisoNeighbourAggregate(vertex, aggregates, neighbours)`: the end of the loop is set to the beginning of the edges, so the list
stays empty. dune/istl/paamg/aggregates.hh:2151-2166. -/
def nonisoNeighbours (_ : Nat) : List Agg := []

/-- `connected(vertex, aggregateList, aggregates)`. dune/istl/paamg/aggregates.hh:2205-2227. -/
def connectedTo (G : Graph) (st : AgSt) (v : Nat) (l : List Agg) : Bool :=
  l.any fun a => (G.adj v).any fun t => decide (st.agg t = a)

/-- `mergeNeighbour(vertex, aggregates)`; `none` is `UNAGGREGATED`. dune/istl/paamg/aggregates.hh:2168-2184. -/
def mergeNeighbour (G : Graph) (P : Props) (st : AgSt) (v : Nat) : Option Nat :=
  (G.adj v).find? fun t => decide (st.agg t ≠ .unagg) && (decide (P.isolated t = P.isolated v) &&
    (P.isolated v || ((P.dep v t || P.infl v t) && admissible v)))

/-! ## Growing -/

/-- State of the candidate search in `growIsolatedAggregate`: `maxCon`, `maxFrontNeighbours`, `candidate`. -/
structure IsoSel where
  maxCon : Option ℚ
  maxFront : Nat
  cand : Option Nat

/-- Loop body of the candidate search. dune/istl/paamg/aggregates.hh:2244-2270. -/
def isoSelStep (G : Graph) (c : Crit) (st : AgSt) (ca : List Agg) (s : IsoSel) (v : Nat) : IsoSel :=
  if distance v > c.maxDistance then s
  else if ca.length > 0 ∧ connectedTo G st v ca = false then s
  else
    let con := connectivity G st v
    if conEq con s.maxCon then
      let fn := noFrontNeighbours G st v
      if fn ≥ s.maxFront then { s with maxFront := fn, cand := some v } else s
    else if conGt con s.maxCon then ⟨con, noFrontNeighbours G st v, some v⟩
    else s

/-- The candidate of one pass. dune/istl/paamg/aggregates.hh:2237-2270. -/
def isoCandidate (G : Graph) (c : Crit) (st : AgSt) (ca : List Agg) : Option Nat :=
  (st.front.foldl (isoSelStep G c st ca) ⟨some (-1), 0, none⟩).cand

/-- `growIsolatedAggregate(seed, aggregates, c)`. dune/istl/paamg/aggregates.hh:2229-2277. -/
def growIso (G : Graph) (c : Crit) (ca : List Agg) : Nat → AgSt → Option (Res AgSt)
  | 0, _ => none
  | fuel + 1, st =>
    if st.verts.length < c.minSize ∧ st.conn.length < c.maxConn then
      match isoCandidate G c st ca with
      | none => some (.ok st)
      | some v =>
        match add1 G v st with
        | .ok st' => growIso G c ca fuel st'
        | r => some r
    else some (.ok st)

/-- State of the candidate search in `growAggregate`. -/
structure Sel where
  maxTwo : Int
  maxOne : Int
  maxNb : Int
  maxCon : Option ℚ
  cands : List Nat

/-- The part of the loop body common to both cases: a tie is broken by connectivity, then by the number of front neighbours;
`always` says whether a vertex with fewer front neighbours is still appended (the two-way case).
dune/istl/paamg/aggregates.hh:2304-2321, 2348-2368. -/
def tieBreak (G : Graph) (st : AgSt) (always : Bool) (s : Sel) (v : Nat) : Sel :=
  let con := connectivity G st v
  if conEq con s.maxCon then
    let nb : Int := noFrontNeighbours G st v
    if nb > s.maxNb then { s with maxNb := nb, cands := [v] }
    else if always || decide (nb = s.maxNb) then { s with cands := s.cands ++ [v] }
    else s
  else if conGt con s.maxCon then { s with maxCon := con, maxNb := noFrontNeighbours G st v, cands := [v] }
  else s

/-- The two-way part of the loop body. dune/istl/paamg/aggregates.hh:2300-2331. -/
def selTwo (G : Graph) (st : AgSt) (two : Int) (s : Sel) (v : Nat) : Sel :=
  if s.maxTwo = two ∧ two > 0 then tieBreak G st true s v
  else if two > s.maxTwo then
    { maxTwo := two, maxCon := connectivity G st v, maxNb := noFrontNeighbours G st v, cands := [v], maxOne := 2147483647 }
  else s

/-- The one-way part of the loop body. dune/istl/paamg/aggregates.hh:2338-2376. -/
def selOne (G : Graph) (st : AgSt) (one : Int) (s : Sel) (v : Nat) : Sel :=
  if one = 0 then s
  else if admissible v = false then s
  else if s.maxOne = one ∧ one > 0 then tieBreak G st false s v
  else if one > s.maxOne then
    { s with maxOne := one, maxCon := connectivity G st v, maxNb := noFrontNeighbours G st v, cands := [v] }
  else s

/-- Loop body of the candidate search. dune/istl/paamg/aggregates.hh:2296-2376. -/
def selStep (G : Graph) (P : Props) (st : AgSt) (s : Sel) (v : Nat) : Sel :=
  if P.isolated v then s
  else
    let two : Int := twoWay G P st v st.cur
    let s := selTwo G st two s v
    if two > 0 then s else selOne G st (oneWay G P st v st.cur) s v

/-- The candidates of one pass. dune/istl/paamg/aggregates.hh:2287-2376. -/
def candidates (G : Graph) (P : Props) (st : AgSt) : List Nat := (st.front.foldl (selStep G P st) ⟨0, 0, -1, some (-1), []⟩).cands

/-- `c.maxAggregateSize() - aggregate_->size()` in unsigned 64 bit arithmetic. dune/istl/paamg/aggregates.hh:2382, 2492. -/
def room (c : Crit) (size : Nat) : Nat := if size ≤ c.maxSize then c.maxSize - size else 18446744073709551616 - (size - c.maxSize)

/-- `growAggregate(seed, aggregates, c)`; `dist` is `distance_`. dune/istl/paamg/aggregates.hh:2279-2386. -/
def grow (G : Graph) (P : Props) (c : Crit) (sd : Nat) : Nat → Nat → AgSt → Option AgSt
  | 0, _, _ => none
  | fuel + 1, dist, st =>
    if st.verts.length < c.minSize ∧ dist < c.maxDistance then
      let cs := candidates G P st
      if cs.length = 0 then some st
      else grow G P c sd fuel (distance sd) (addMany G (cs.take (room c st.verts.length)) st)
    else some st

/-- Whether the rounding step takes a front vertex. dune/istl/paamg/aggregates.hh:2465-2488. -/
def roundOk (G : Graph) (P : Props) (c : Crit) (st : AgSt) (v : Nat) : Bool :=
  if P.isolated v then false
  else if twoWay G P st v st.cur = 0 ∧ (oneWay G P st v st.cur = 0 ∨ admissible v = false) then false
  else if (neighbours G P st v st.cur).1 ≥ (neighbours G P st v st.cur).2 then false
  else if distance v > c.maxDistance then false
  else true

/-- The rounding step. dune/istl/paamg/aggregates.hh:2457-2496. -/
def rounding (G : Graph) (P : Props) (c : Crit) (sd : Nat) : Nat → AgSt → Option AgSt
  | 0, _ => none
  | fuel + 1, st =>
    if P.isolated sd = false ∧ st.verts.length < c.maxSize then
      match st.front.find? (roundOk G P c st) with
      | none => some st
      | some v => rounding G P c sd fuel (addMany G ([v].take (room c st.verts.length)) st)
    else some st

/-- State of `build`: the aggregator, the counters `conAggregates`, `isoAggregates`, `oneAggregates`, `skippedAggregates` and the
statistics `minA`, `maxA`, `avg`. dune/istl/paamg/aggregates.hh:2415-2420. -/
structure BuildSt where
  st : AgSt
  con : Nat
  iso : Nat
  one : Nat
  skipped : Nat
  minA : Nat
  maxA : Nat
  avg : Nat

/-- Growing from a seed: `aggregate_->seed(seed)`, then one of the two growth functions.
dune/istl/paamg/aggregates.hh:2449-2454 (the branches that aggregate). -/
def growFrom (G : Graph) (P : Props) (c : Crit) (fuel sd : Nat) (st : AgSt) : Option (Res AgSt) :=
  match seed G sd st with
  | .ok st =>
    if P.isolated sd then growIso G c (nonisoNeighbours sd) fuel st
    else (grow G P c sd fuel 0 st).map .ok
  | r => some r

/-- Merging of one-vertex aggregates and statistics. dune/istl/paamg/aggregates.hh:2498-2530. -/
def finish (G : Graph) (P : Props) (c : Crit) (sd : Nat) (b : BuildSt) : BuildSt :=
  if b.st.verts.length = 1 ∧ c.maxSize > 1 then
    if P.isolated sd = false then
      match mergeNeighbour G P b.st sd with
      | some t => { b with st := { b.st with agg := upd b.st.agg sd (b.st.agg t), id := b.st.id - 1 }, avg := b.avg + 1 }
      | none => { b with avg := b.avg + 2, minA := min b.minA 1, maxA := max b.maxA 1, one := b.one + 1, con := b.con + 1 }
    else { b with avg := b.avg + 2, minA := min b.minA 1, maxA := max b.maxA 1, one := b.one + 1, iso := b.iso + 1 }
  else if P.isolated sd then
    { b with avg := b.avg + b.st.verts.length, minA := min b.minA b.st.verts.length, maxA := max b.maxA b.st.verts.length, iso := b.iso + 1 }
  else
    { b with avg := b.avg + b.st.verts.length, minA := min b.minA b.st.verts.length, maxA := max b.maxA b.st.verts.length, con := b.con + 1 }

/-- Loop body for an unaggregated vertex `sd`. dune/istl/paamg/aggregates.hh:2430-2530. -/
def buildSeed (G : Graph) (P : Props) (c : Crit) (fuel : Nat) (b : BuildSt) (sd : Nat) : Option (Res BuildSt) :=
  let st := unmarkFront b.st
  if P.excluded sd then some (.ok { b with st := { st with agg := upd st.agg sd .iso }, skipped := b.skipped + 1 })
  else if P.isolated sd ∧ c.skipIsolated = true then
    some (.ok { b with st := { st with agg := upd st.agg sd .iso }, skipped := b.skipped + 1 })
  else
    match growFrom G P c fuel sd st with
    | some (.ok st) => (rounding G P c sd fuel st).map fun st => .ok (finish G P c sd { b with st := st })
    | some (.throw e) => some (.throw e)
    | some .ub => some .ub
    | none => none

/-- The main loop. `Stack::pop` scans the vertices in order and skips those already aggregated.
dune/istl/paamg/aggregates.hh:2423-2532, 2566-2578. -/
def buildLoop (G : Graph) (P : Props) (c : Crit) (fuel : Nat) : List Nat → BuildSt → Option (Res BuildSt)
  | [], b => some (.ok b)
  | v :: vs, b =>
    if b.st.agg v ≠ .unagg then buildLoop G P c fuel vs b
    else
      match buildSeed G P c fuel b v with
      | some (.ok b') => buildLoop G P c fuel vs b'
      | r => r

/-- `buildAggregates(matrix, graph, criterion, finestLevel)` on a fresh map (all vertices unaggregated) and a fresh graph (no front
flags). The returned tuple is `(con + iso, iso, one, skipped)`. dune/istl/paamg/aggregates.hh:2388-2544. -/
def buildAggregates (G : Graph) (P : Props) (c : Crit) (fuel : Nat) : Option (Res BuildSt) :=
  buildLoop G P c fuel (List.range G.n) ⟨⟨fun _ => .unagg, [], fun _ => false, [], [], -1⟩, 0, 0, 0, 0, 1000000, 0, 0⟩

end Amg
end Istl

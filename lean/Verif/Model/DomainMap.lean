import Verif.Model.GraphRepart

/-!
# From the partition to processes

dune/istl/repartition.hh: `getDomain`, the vector `setPartition`, `graphRepartition`, the communication graph of `commGraphRepartition`, and
`isValidGraph`. The partitioner (ParMETIS, METIS) is an oracle: `part p` is the vector it leaves on process `p`. The entry `-1` is `none`.
Not modelled: the additional `copyCopyToAll` for the category `nonoverlapping` (repartition.hh:1433-1435), output.
-/

namespace Istl
namespace Par
open Amg

/-! ## `getDomain` -/

/-- Count the occurrences. dune/istl/repartition.hh:398, 403-406. -/
def countDomains (nparts : Nat) (part : List Nat) : Res (List Nat) :=
  part.foldlM (fun d x => do
    let c ← rd d x
    wr d x (c + 1)) (List.replicate nparts 0)

/-- The buffers of all processes after `i` shifts along the ring. dune/istl/repartition.hh:416-421. -/
def ringBuf (npes : Nat) (rows : Nat → List Nat) : Nat → Nat → List Nat
  | 0, p => rows p
  | i + 1, p => ringBuf npes rows i ((p + npes - 1) % npes)

/-- `domainMatrix` on process `p` as a list of rows; `none` is a row of entries `-1`. dune/istl/repartition.hh:408-428. -/
def domainMatrix (npes : Nat) (rows : Nat → List Nat) (p : Nat) : Res (List (Option (List Nat))) := do
  let M ← wr (List.replicate npes none) p (some (rows p))
  (List.range (npes - 1)).foldlM (fun M i => wr M ((p + npes - 1 - i) % npes) (some (ringBuf npes rows (i + 1) p))) M

/-- One process in the search for the largest number; a row of `-1` never wins. dune/istl/repartition.hh:440-447. -/
def pickStep (M : List (Option (List Nat))) (i : Nat) (assigned : List Bool) (s : Nat × Option Nat) (j : Nat) : Res (Nat × Option Nat) := do
  let a ← rd assigned j
  let row ← rd M j
  match row with
  | none => .ok s
  | some r => do
    let c ← rd r i
    .ok (if a = false ∧ s.1 < c then (c, some j) else s)

/-- The loop over the processes. dune/istl/repartition.hh:438-448. -/
def pick (npes : Nat) (M : List (Option (List Nat))) (i : Nat) (assigned : List Bool) : Res (Option Nat) := do
  let s ← (List.range npes).foldlM (pickStep M i assigned) (0, none)
  .ok s.2

/-- State of the assignment. dune/istl/repartition.hh:395-401, 434-436. -/
structure DomState where
  mapping : List (Option Nat)
  assigned : List Bool
  mine : Option Nat
  unassigned : List Nat
  deriving DecidableEq

/-- One domain. dune/istl/repartition.hh:438-464. -/
def domStep (npes : Nat) (M : List (Option (List Nat))) (me : Nat) (s : DomState) (i : Nat) : Res DomState := do
  let pe ← pick npes M i s.assigned
  match pe with
  | some j => do
    let m ← wr s.mapping i (some j)
    let a ← wr s.assigned j true
    .ok { s with mapping := m, assigned := a, mine := if j = me then some i else s.mine }
  | none => .ok { s with unassigned := s.unassigned ++ [i] }

/-- `std::find_if(next_free, assigned.end(), ...)`: the first process without a domain, not before `nf`; dereferencing the end is undefined.
dune/istl/repartition.hh:471-472. -/
def findFree (assigned : List Bool) (nf : Nat) : Res Nat :=
  match (assigned.drop nf).findIdx? (fun b => !b) with
  | none => .ub
  | some k => .ok (nf + k)

/-- One domain that no process wanted. dune/istl/repartition.hh:468-475. -/
def freeStep (s : Nat × DomState) (u : Nat) : Res (Nat × DomState) := do
  let k ← findFree s.2.assigned s.1
  let m ← wr s.2.mapping u (some k)
  let a ← wr s.2.assigned k true
  .ok (k, { s.2 with mapping := m, assigned := a })

/-- `getDomain(comm, part, numOfOwnVtx, nparts, myDomain, domainMapping)` on process `me`; the result is `myDomain` and `domainMapping`.
dune/istl/repartition.hh:390-476. -/
def getDomain (npes nparts : Nat) (part : Nat → List Nat) (me : Nat) : Res (Option Nat × List (Option Nat)) := do
  let rows ← (List.range npes).mapM fun p => countDomains nparts (part p)
  let M ← domainMatrix npes (fun p => rows.getD p []) me
  let s ← (List.range nparts).foldlM (domStep npes M me) ⟨List.replicate nparts none, List.replicate npes false, none, []⟩
  let t ← s.unassigned.foldlM freeStep (0, s)
  .ok (t.2.mine, t.2.mapping)

/-! ## The vector `setPartition` -/

/-- One index in the loop over the index set: the entries of `part` are taken one after the other. A mapping of `-1` is returned as `none`.
dune/istl/repartition.hh:1423-1427. -/
def setStep (part : List Nat) (mapping : List (Option Nat)) (s : Nat × List (Option Nat)) (e : Idx) : Res (Nat × List (Option Nat)) :=
  if e.attr = .owner then do
    let d ← rd part s.1
    let w ← rd mapping d
    let v ← wr s.2 e.loc w
    .ok (s.1 + 1, v)
  else .ok s

/-- The loop. dune/istl/repartition.hh:1421-1427. -/
def setPartition (A : PIS) (part : List Nat) (mapping : List (Option Nat)) : Res (List (Option Nat)) := do
  let s ← A.foldlM (setStep part mapping) (0, List.replicate A.length none)
  .ok s.2

/-- `domainMapping`; for `nparts == 0` the write is out of range. dune/istl/repartition.hh:1402-1406. -/
def domainMapping (npes nparts : Nat) (part : Nat → List Nat) (me : Nat) : Res (List (Option Nat)) :=
  if nparts > 1 then do
    let r ← getDomain npes nparts part me
    .ok r.2
  else wr (List.replicate nparts none) 0 (some 0)

/-- The vectors of all processes as functions. -/
def vecOf (vs : List (List (Option Nat))) (p i : Nat) : Option Nat :=
  match vs[p]? with
  | none => none
  | some v => match v[i]? with
    | none => none
    | some x => x

/-- `part` for `nparts == 1`: everything goes to process 0. dune/istl/repartition.hh:1389-1394. -/
def partOrZero (nparts : Nat) (A : PIS) (part : List Nat) : List Nat := if nparts > 1 then part else List.replicate (numOwn A) 0

/-- `setPartition` on process `q` after the communication. dune/istl/repartition.hh:1421-1430. -/
def partition (P nparts : Nat) (pis : Nat → PIS) (part : Nat → List Nat) (q : Nat) (order : List Nat) : Res (List (Option Nat)) := do
  let part' := fun p => partOrZero nparts (pis p) (part p)
  let vs ← (List.range P).mapM fun p => do
    let m ← domainMapping P nparts part' p
    setPartition (pis p) (part' p) m
  .ok ((List.range (pis q).length).map (copyOwnerToAll pis (vecOf vs) (vecOf vs) q order))

/-- A vector of process numbers, `-1` being no process. The code passes the vector on; sending to process `-1` is an error. -/
def allSome (v : List (Option Nat)) : Res (List Nat) := v.mapM fun x => match x with
  | none => .ub
  | some w => .ok w

/-- `graphRepartition(graph, oocomm, nparts, outcomm, redistInf)` on process `q`: `order p` is the order in which the messages of
`copyOwnerToAll` reach process `p`, `order'` that of the messages of `buildCommunication`.
dune/istl/repartition.hh:1228-1444. -/
def graphRepartition (P nparts : Nat) (gr : Nat → Graph) (pis : Nat → PIS) (part : Nat → List Nat) (q : Nat) (order : Nat → List Nat)
    (order' : List Nat) : Res NewComm := do
  let pis' := fillIndexSetHoles P (fun p => (gr p).n) pis
  let vs ← (List.range P).mapM fun p => do
    let v ← partition P nparts pis' part p (order p)
    allSome v
  buildCommunication P gr (fun p => vs.getD p []) pis' q order'

/-! ## `commGraphRepartition` -/

/-- The vector `realpart` of process `q`: all entries are the destination of the own data, then the owners' entries are communicated.
dune/istl/repartition.hh:1178-1181. -/
def realpart (n : Nat → Nat) (pis : Nat → PIS) (dest : Nat → Nat) (q : Nat) (order : List Nat) : List Nat :=
  (List.range (n q)).map (copyOwnerToAll pis (fun p _ => dest p) (fun p _ => dest p) q order)

/-- `commGraphRepartition(mat, oocomm, nparts, outcomm, redistInf)` on process `q`; `dest p` is the result of METIS for process `p`, or
0 for `nparts == 1`. dune/istl/repartition.hh:822-1211. -/
def commGraphRepartition (P : Nat) (gr : Nat → Graph) (pis : Nat → PIS) (dest : Nat → Nat) (q : Nat) (order : Nat → List Nat)
    (order' : List Nat) : Res NewComm :=
  buildCommunication P gr (fun p => realpart (fun p => (gr p).n) pis dest p (order p)) (fillIndexSetHoles P (fun p => (gr p).n) pis) q order'

/-- `gxadj` as gathered: for each process its `xadj`. dune/istl/repartition.hh:874-875, 1063-1065. -/
def gatheredXadj (P : Nat) (nb : Nat → List Nat) : List Nat := (List.range P).flatMap fun p => [0, (nb p).length]

/-- One step of the shift: process `i`, one vertex each. dune/istl/repartition.hh:1087-1098. -/
def shiftStep (x : List Nat) (i : Nat) : Res (List Nat) := do
  let increment ← rd x i
  let v ← rd x (1 + i + i)
  wr x (1 + i) (v + increment)

/-- The arrays `gxadj` and `gadjncy` given to METIS. dune/istl/repartition.hh:1063-1098. -/
def commGraph (P : Nat) (nb : Nat → List Nat) : Res (List Nat × List Nat) := do
  let x ← (List.range (P - 1)).foldlM (fun x i => shiftStep x (i + 1)) (gatheredXadj P nb)
  .ok (x, (List.range P).flatMap nb)

/-! ## `isValidGraph` -/

/-- The edges of one vertex are in range: the comparison is with `>`. dune/istl/repartition.hh:796-801. -/
def validTargets (gnoVtx : Nat) (adjncy : List Nat) (a b : Nat) : Res Bool :=
  (List.range (b - a)).foldlM (fun ok k => do
    let t ← rd adjncy (a + k)
    .ok (if t > gnoVtx then false else ok)) true

/-- `isValidGraph(noVtx, gnoVtx, noEdges, xadj, adjncy, false)`. dune/istl/repartition.hh:778-819. -/
def isValidGraph (noVtx gnoVtx noEdges : Nat) (xadj adjncy : List Nat) : Res Bool :=
  (List.range noVtx).foldlM (fun ok v => do
    let a ← rd xadj v
    let b ← rd xadj (v + 1)
    let c ← validTargets gnoVtx adjncy a b
    .ok (if a > noEdges ∨ b > noEdges ∨ c = false then false else ok)) true

end Par
end Istl

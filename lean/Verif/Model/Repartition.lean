import Verif.Model.ParCoarsen
import Verif.Model.MatMat
import Verif.Model.Graph
import Mathlib.Data.List.Sort

/-!
# Building the communication of a new decomposition

dune/istl/repartition.hh, `buildCommunication` and what it calls: every process is told for its indices (own and foreign) to which process
they go; the processes exchange the global indices; the new index sets, the interface for moving data and the new neighbours are set
up. MPI is modelled by its contract: `MPI_Allgather(v)` concatenates; a packed buffer is the list of the packed numbers; messages
arrive in any order. Process numbers are natural numbers (a negative number is no valid destination). `ParallelIndexSet::endResize`
sorts by the global index (dune-common). `MPI_Comm_split` with the old rank as key numbers the participating processes in their old order.
Not modelled: verbosity, timers.
-/

namespace Istl
namespace Par
open Amg MatMat

/-! ## Whom to send to, whom to receive from -/

/-- The different entries of `setPartition` in ascending order. dune/istl/repartition.hh:1499-1507. -/
def sendTo (part : List Nat) : List Nat := part.foldl (fun s p => setInsert p s) []

/-- `gsendToDispl`. dune/istl/repartition.hh:1525-1527. -/
def displs : List Nat → List Nat
  | [] => [0]
  | n :: ns => 0 :: (displs ns).map (n + ·)

/-- The inner loop: does process `proc` send to `me`? dune/istl/repartition.hh:1535-1537. -/
def sendsTo (gsendTo displ : List Nat) (me proc : Nat) : Res Bool := do
  let a ← rd displ proc
  let b ← rd displ (proc + 1)
  (List.range (b - a)).foldlM (fun r k => do
    let t ← rd gsendTo (a + k)
    .ok (r || t == me)) false

/-- `recvFrom`: the processes are inserted in ascending order. dune/istl/repartition.hh:1514-1537. -/
def recvFrom (P : Nat) (parts : Nat → List Nat) (me : Nat) : Res (List Nat) :=
  let gnoSend := (List.range P).map fun p => (sendTo (parts p)).length
  let gsendTo := (List.range P).flatMap fun p => sendTo (parts p)
  (List.range P).foldlM (fun s proc => do
    let b ← sendsTo gsendTo (displs gnoSend) me proc
    .ok (if b then s ++ [proc] else s)) []

/-! ## The messages -/

/-- State of `getNeighbor`: the set of neighbours (global indices) and of neighbour processes. -/
structure Nbrs where
  ovl : List Nat
  procs : List Nat
  deriving DecidableEq

/-- One edge in `getNeighbor`: a target that goes to another process or is not owned here. dune/istl/repartition.hh:555-562. -/
def nbrEdge (part : List Nat) (pis : PIS) (toPe : Nat) (s : Nbrs) (t : Nat) : Res Nbrs :=
  match pairOf pis t with
  | none => .ub
  | some e => do
    let pe ← rd part e.loc
    if pe ≠ toPe ∨ e.attr ≠ .owner then .ok ⟨setInsert e.g s.ovl, setInsert pe s.procs⟩ else .ok s

/-- `getNeighbor(g, part, vtx, indexSet, toPe, neighbor, neighborProcs)`. dune/istl/repartition.hh:550-564. -/
def getNeighbor (G : Graph) (part : List Nat) (pis : PIS) (toPe : Nat) (v : Nat) (s : Nbrs) : Res Nbrs :=
  (G.adj v).foldlM (nbrEdge part pis toPe) s

/-- One index in `getOwnerOverlapVec`. dune/istl/repartition.hh:610-618. -/
def ownerStep (G : Graph) (part : List Nat) (pis : PIS) (toPe : Nat) (s : List Nat × Nbrs) (e : Idx) : Res (List Nat × Nbrs) :=
  if e.attr = .owner then do
    let pe ← rd part e.loc
    if pe = toPe then do
      let nb ← getNeighbor G part pis toPe e.loc s.2
      .ok (s.1 ++ [e.g], nb)
    else .ok s
  else .ok s

/-- `getOwnerOverlapVec(graph, part, indexSet, myPe, toPe, ownerVec, overlapSet, redist, neighborProcs)` with empty vector and sets.
dune/istl/repartition.hh:605-622, 1597-1604. -/
def getOwnerOverlapVec (G : Graph) (part : List Nat) (pis : PIS) (toPe : Nat) : Res (List Nat × Nbrs) :=
  pis.foldlM (ownerStep G part pis toPe) ([], ⟨[], []⟩)

/-- `createSendBuf(...)`: three lists, each after its length. dune/istl/repartition.hh:315-333. -/
def createSendBuf (m : List Nat × Nbrs) : List Nat :=
  m.1.length :: m.1 ++ (m.2.ovl.length :: m.2.ovl ++ (m.2.procs.length :: m.2.procs))

/-- Unpack a length and as many numbers; reading beyond the buffer is undefined. dune/istl/repartition.hh:348-355, 357-364, 366-373. -/
def unpack (buf : List Nat) : Res (List Nat × List Nat) :=
  match buf with
  | [] => .ub
  | s :: rest => if s ≤ rest.length then .ok (rest.take s, rest.drop s) else .ub

/-- What a process collects: owner indices with the process they come from, overlap indices, neighbour processes.
dune/istl/repartition.hh:1582-1586. -/
structure Mine where
  owner : List (Nat × Nat)
  ovl : List Nat
  procs : List Nat
  deriving DecidableEq

/-- `saveRecvBuf(recvBuf, ...)` for a message of process `src`. dune/istl/repartition.hh:343-374. -/
def saveRecvBuf (buf : List Nat) (src : Nat) (s : Mine) : Res Mine := do
  let a ← unpack buf
  let b ← unpack a.2
  let c ← unpack b.2
  .ok ⟨s.owner ++ a.1.map fun g => (g, src), b.1.foldl (fun o g => setInsert g o) s.ovl,
    c.1.foldl (fun o n => setInsert n o) s.procs⟩

/-- The messages, in the order of arrival. A message that is awaited but never sent would block; a process sends to all processes in
its `sendTo`. dune/istl/repartition.hh:1595-1629, 1640-1660. -/
def receiveAll (gr : Nat → Graph) (parts : Nat → List Nat) (old : Nat → PIS) (q : Nat) (order : List Nat) : Res Mine :=
  order.foldlM (fun s p => do
    let m ← getOwnerOverlapVec (gr p) (parts p) (old p) q
    saveRecvBuf (createSendBuf m) p s) ⟨[], [], []⟩

/-! ## The new index set -/

/-- The order of pairs. dune/istl/repartition.hh:478-485, 1762. -/
def pairLe (a b : Nat × Nat) : Prop := a.1 < b.1 ∨ (a.1 = b.1 ∧ a.2 ≤ b.2)

instance : DecidableRel pairLe := fun a b => inferInstanceAs (Decidable (_ ∨ _))

/-- `mergeVec(ownerVec, overlapSet)`: one pass over both sorted ranges; returns what is left of the set.
dune/istl/repartition.hh:520-532. -/
def mergeVec : List Nat → List Nat → List Nat
  | _, [] => []
  | v, s :: set =>
    let v' := v.dropWhile fun x => x < s
    match v' with
    | [] => s :: mergeVec v' set
    | x :: r => if x = s then mergeVec (x :: r) set else s :: mergeVec (x :: r) set

/-- The order of the index set. Contract of `ParallelIndexSet::endResize` (dune-common). -/
def idxLe (a b : Idx) : Prop := a.g ≤ b.g

instance : DecidableRel idxLe := fun a b => inferInstanceAs (Decidable (a.g ≤ b.g))

/-- The owner entries, numbered from 0. dune/istl/repartition.hh:1766-1769. -/
def ownerIdx (owner : List (Nat × Nat)) : List Idx := owner.zipIdx.map fun x => ⟨x.1.1, x.2, .owner⟩

/-- The other entries, numbered from `k`; they have the attribute `copy`. dune/istl/repartition.hh:1802-1804. -/
def copyIdx (ovl : List Nat) (k : Nat) : List Idx := (ovl.zipIdx k).map fun x => ⟨x.1, x.2, .copy⟩

/-- `existentOnNextLevel`: does the process receive anything? dune/istl/repartition.hh:1539. -/
def existent (P : Nat) (parts : Nat → List Nat) (p : Nat) : Res Bool := do
  let from' ← recvFrom P parts p
  .ok (!from'.isEmpty)

/-- The ranks in the new communicator; `none` for a process with the colour `MPI_UNDEFINED`. Contract of `MPI_Comm_split` with one
colour and the old rank as key. dune/istl/repartition.hh:1710-1722. -/
def ranksOf (ex : List Bool) : List (Option Nat) :=
  (List.range ex.length).map fun p => if ex[p]? = some true then some ((ex.take p).count true) else none

/-- `newranks`. dune/istl/repartition.hh:1722-1730. -/
def newRanks (P : Nat) (parts : Nat → List Nat) : Res (List (Option Nat)) := do
  let ex ← (List.range P).mapM (existent P parts)
  .ok (ranksOf ex)

/-- What `buildCommunication` leaves on a process: the new index set, the receive lists of the redistribution interface (by source
process), the neighbour processes in the numbering of the old and the new communicator, and whether the process takes part in the new
communication. -/
structure NewComm where
  pis : PIS
  recv : Nat → List Nat
  procs : List Nat
  nbrs : List (Option Nat)
  exists' : Bool

/-- The send list of the redistribution interface from this process to process `q`. dune/istl/repartition.hh:279-281. -/
def sendIface (pis : PIS) (part : List Nat) (q : Nat) : Res (List Nat) :=
  pis.foldlM (fun l e => if e.attr = .owner then do
      let pe ← rd part e.loc
      .ok (if pe = q then l ++ [e.loc] else l)
    else .ok l) []

/-- The receive list for data of process `p`. dune/istl/repartition.hh:1768-1771, 288-291. -/
def recvIface (owner : List (Nat × Nat)) (p : Nat) : List Nat := (owner.zipIdx.filter fun x => x.1.2 = p).map Prod.snd

/-- The new index set from what was received. dune/istl/repartition.hh:1762-1806. -/
def newIndices (m : Mine) : PIS :=
  let owner := m.owner.insertionSort pairLe
  (ownerIdx owner ++ copyIdx (mergeVec (owner.map Prod.fst) m.ovl) owner.length).insertionSort idxLe

/-- `buildCommunication(graph, setPartition, oocomm, outcomm, redistInf)` on process `q`; `order` is the order in which the messages
arrive. dune/istl/repartition.hh:1449-1866. -/
def buildCommunication (P : Nat) (gr : Nat → Graph) (parts : Nat → List Nat) (old : Nat → PIS) (q : Nat) (order : List Nat) :
    Res NewComm := do
  let ex ← existent P parts q
  let m ← receiveAll gr parts old q order
  let ranks ← newRanks P parts
  let nbrs ← m.procs.mapM (rd ranks)
  .ok ⟨newIndices m, recvIface (m.owner.insertionSort pairLe), m.procs, nbrs, ex⟩

end Par
end Istl

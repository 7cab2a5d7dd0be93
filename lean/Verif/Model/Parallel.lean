import Verif.Model.SpMat
import Mathlib.Algebra.Ring.Defs

/-!
# Owner/overlap/copy communication

Model of `dune/istl/owneroverlapcopy.hh`, class `OwnerOverlapCopyCommunication`, on any number of processes. A vector on a process is a
function of the local index (or a list, where its length matters). The communication layer of dune-common is modelled by its contract:
`Interface::build` gives for every pair of processes the list of shared indices with the right attributes on both sides, ordered by
global index; `BufferedCommunicator::forward` first gathers all messages, then scatters every message as a whole in the order of arrival
(`MPI_Waitany`), which is arbitrary.
-/

namespace Istl
namespace Par

/-- `OwnerOverlapCopyAttributeSet::AttributeSet`. dune/istl/owneroverlapcopy.hh:58-63. -/
inductive Attr where
  | owner
  | overlap
  | copy
  deriving DecidableEq

/-- An entry of the parallel index set: global index, local index, attribute. dune/istl/owneroverlapcopy.hh:595-605. -/
structure Idx where
  g : Nat
  loc : Nat
  attr : Attr
  deriving DecidableEq

/-- The parallel index set of a process, ordered by global index (contract of `ParallelIndexSet::endResize`). -/
abbrev PIS := List Idx

/-- The entry of a global index. -/
def lookup (A : PIS) (g : Nat) : Option Idx := A.find? fun e => e.g = g

/-! ## Masked scalar product -/

/-- Set up the mask vector: all ones, zero at the local indices that are not owned. dune/istl/owneroverlapcopy.hh:403-408, 432-437. -/
def maskInit (pis : PIS) (n : Nat) : Res (List Nat) :=
  pis.foldlM (fun m e => if e.attr ≠ .owner then wr m e.loc 0 else .ok m) (List.replicate n 1)

/-- The mask is set up anew only if its size differs from that of the vector. dune/istl/owneroverlapcopy.hh:400-402, 429-431. -/
def refresh (mask : List Nat) (pis : PIS) (n : Nat) : Res (List Nat) :=
  if mask.length ≠ n then maskInit pis n else .ok mask

variable {V K : Type}

/-- The local loop `result += (x[i]*(y[i]))*mask[i]`; `term i` is `x[i]*y[i]` of `dot` or `two_norm2` of `norm`.
dune/istl/owneroverlapcopy.hh:411-412, 440-441. -/
def maskedSum [NonAssocSemiring K] (mask : List Nat) (term : Nat → K) (n : Nat) : Res K :=
  (List.range n).foldlM (fun s i => do
    let m ← rd mask i
    .ok (s + term i * (m : K))) 0

/-- The local part of `dot(x,y,result)` (and of `norm(x)`): returns the local sum and the mask kept for the next call.
dune/istl/owneroverlapcopy.hh:396-413, 424-442. -/
def localSum [NonAssocSemiring K] (mask : List Nat) (pis : PIS) (term : Nat → K) (n : Nat) : Res (K × List Nat) := do
  let mask ← refresh mask pis n
  let s ← maskedSum mask term n
  .ok (s, mask)

/-- `cc.sum(result)`: the local results added in an arbitrary order `ord` of the processes. dune/istl/owneroverlapcopy.hh:413, 443. -/
def allSum [AddCommMonoid K] (ord : List Nat) (res : Nat → K) : K := ord.foldl (fun s p => s + res p) 0

/-! ## Communication -/

/-- Local indices of process `A` sent to process `B`: shared, with source attribute here and destination attribute there.
Contract of `Interface::build` (dune-common), called at dune/istl/owneroverlapcopy.hh:221, 232, 248, 262, 275, 286. -/
def sendList (src dst : Attr → Bool) (A B : PIS) : List Nat :=
  A.filterMap fun e =>
    match lookup B e.g with
    | some r => if src e.attr && dst r.attr then some e.loc else none
    | none => none

/-- Local indices of process `B` at which data from process `A` arrives. Contract of `Interface::build` (dune-common). -/
def recvList (src dst : Attr → Bool) (B A : PIS) : List Nat :=
  B.filterMap fun e =>
    match lookup A e.g with
    | some r => if src r.attr && dst e.attr then some e.loc else none
    | none => none

/-- Scatter one message: `CopyGatherScatter` or `AddGatherScatter` as `comb old new`. dune/istl/owneroverlapcopy.hh:180-211. -/
def scatter (comb : V → V → V) (d : Nat → V) (msg : List V) (at' : List Nat) : Nat → V :=
  (msg.zip at').foldl (fun d m => upd d m.2 (comb (d m.2) m.1)) d

/-- `communicator.forward<…>(source, dest)` as seen on process `q`; `order` is the order in which the messages of the other processes
arrive. dune/istl/owneroverlapcopy.hh:308-389. -/
def forward (comb : V → V → V) (src dst : Attr → Bool) (pis : Nat → PIS) (source dest : Nat → Nat → V) (q : Nat) (order : List Nat) :
    Nat → V :=
  order.foldl (fun d p => scatter comb d ((sendList src dst (pis p) (pis q)).map (source p)) (recvList src dst (pis q) (pis p))) (dest q)

/-- The attribute sets used for building the interfaces. dune/istl/owneroverlapcopy.hh:213-288. -/
def isOwner (a : Attr) : Bool := a = .owner
def isCopy (a : Attr) : Bool := a = .copy
def isAll (_ : Attr) : Bool := true
def isOwnerOverlap (a : Attr) : Bool := a = .owner || a = .overlap
def isOwnerCopy (a : Attr) : Bool := a = .owner || a = .copy

/-- `copyOwnerToAll(source,dest)`. dune/istl/owneroverlapcopy.hh:308-317. -/
def copyOwnerToAll (pis : Nat → PIS) (source dest : Nat → Nat → V) (q : Nat) (order : List Nat) : Nat → V :=
  forward (fun _ v => v) isOwner isAll pis source dest q order

/-- `copyCopyToAll(source,dest)`. dune/istl/owneroverlapcopy.hh:326-335. -/
def copyCopyToAll (pis : Nat → PIS) (source dest : Nat → Nat → V) (q : Nat) (order : List Nat) : Nat → V :=
  forward (fun _ v => v) isCopy isAll pis source dest q order

/-- `addOwnerOverlapToAll(source,dest)`. dune/istl/owneroverlapcopy.hh:344-353. -/
def addOwnerOverlapToAll [Add V] (pis : Nat → PIS) (source dest : Nat → Nat → V) (q : Nat) (order : List Nat) : Nat → V :=
  forward (fun a v => a + v) isOwnerOverlap isAll pis source dest q order

/-- `addOwnerCopyToAll(source,dest)`. dune/istl/owneroverlapcopy.hh:362-371. -/
def addOwnerCopyToAll [Add V] (pis : Nat → PIS) (source dest : Nat → Nat → V) (q : Nat) (order : List Nat) : Nat → V :=
  forward (fun a v => a + v) isOwnerCopy isAll pis source dest q order

/-- `addOwnerCopyToOwnerCopy(source,dest)`. dune/istl/owneroverlapcopy.hh:380-389. -/
def addOwnerCopyToOwnerCopy [Add V] (pis : Nat → PIS) (source dest : Nat → Nat → V) (q : Nat) (order : List Nat) : Nat → V :=
  forward (fun a v => a + v) isOwnerCopy isOwnerCopy pis source dest q order

/-- `project(x)`: zero at the copy indices. dune/istl/owneroverlapcopy.hh:535-541. -/
def project [Zero V] (pis : PIS) (x : Nat → V) : Nat → V :=
  pis.foldl (fun x e => if e.attr = .copy then upd x e.loc 0 else x) x

end Par
end Istl

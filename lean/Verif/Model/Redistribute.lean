import Verif.Model.ParCoarsen
import Verif.Model.MatMat

/-!
# Redistribution of matrices

dune/istl/matrixredistribute.hh for `OwnerOverlapCopyCommunication`, solver categories other than nonoverlapping. The communication
layer is modelled by its contract as in `Model/Parallel`: the redistribution interface lists, for every pair of processes, the indices
that the sender owns in the old and the receiver in the new decomposition, ordered by the global index (a process also sends to
itself); messages are gathered first and arrive in any order; a message is a flat buffer, the receiver cuts it by its own row sizes.
`gmax` is `std::numeric_limits<GlobalIndex>::max()`. The new matrix is given by its rows; values not yet written are `junk`.
Not modelled: the copy rows of the nonoverlapping category (only their gather), the assertions.
-/

namespace Istl
namespace Par
open Amg MatMat

variable {B V D S : Type}

/-- `redistribute<CopyGatherScatter>(from, to)` on process `q`: values at owner indices.
dune/istl/matrixredistribute.hh:117-124, 135-139. -/
def redistributeOn (old new : Nat → PIS) (source : Nat → Nat → V) (dest : Nat → V) (q : Nat) (order : List Nat) : Nat → V :=
  order.foldl (fun d p => scatter (fun _ v => v) d ((sendList isOwner isOwner (old p) (new q)).map (source p))
    (recvList isOwner isOwner (new q) (old p))) dest

/-- `redistributeBackward<CopyGatherScatter>(from, to)` on process `p`: the communicator runs backward, data is gathered at the indices
of the receiving side and scattered at those of the sending side. dune/istl/matrixredistribute.hh:125-133, 140-144. -/
def redistributeBackwardOn (old new : Nat → PIS) (dest : Nat → Nat → V) (source : Nat → V) (p : Nat) (order : List Nat) : Nat → V :=
  order.foldl (fun d q => scatter (fun _ v => v) d ((recvList isOwner isOwner (new q) (old p)).map (dest q))
    (sendList isOwner isOwner (old p) (new q))) source

/-- A message of variable size: `gather(i,j)` for all `j` below the size of index `i`. Contract of `BufferedCommunicator`
(dune-common) with `CommPolicy::getSize`, dune/istl/matrixredistribute.hh:376-385, 469-478. -/
def gatherAll (gather : Nat → Nat → Res D) (size : Nat → Nat) : List Nat → Res (List D)
  | [] => .ok []
  | i :: is => do
    let r ← (List.range (size i)).mapM (gather i)
    let buf ← gatherAll gather size is
    .ok (r ++ buf)

/-- `scatter(data, i, j)` for `k` items of the buffer. Contract of `BufferedCommunicator` (dune-common). -/
def scatterItems (scat : S → D → Nat → Res S) (i : Nat) : Nat → List D → S → Res (S × List D)
  | 0, buf, s => .ok (s, buf)
  | _ + 1, [], _ => .ub
  | k + 1, d :: buf, s => do
    let s ← scat s d i
    scatterItems scat i k buf s

/-- Scatter a message: the receiver takes as many items per index as its own sizes say. Contract of `BufferedCommunicator`
(dune-common). -/
def scatterAll (scat : S → D → Nat → Res S) (size : Nat → Nat) : List Nat → List D → S → Res S
  | [], _, s => .ok s
  | i :: is, buf, s => do
    let r ← scatterItems scat i (size i) buf s
    scatterAll scat size is r.2 r.1

/-- `ri.redistribute<GatherScatter>(orig, new)` on process `q` with items of variable number.
dune/istl/matrixredistribute.hh:117-124. -/
def redistributeVar (old new : Nat → PIS) (gather : Nat → Nat → Nat → Res D) (size : Nat → Nat → Nat) (scat : S → D → Nat → Res S)
    (rsize : Nat → Nat) (q : Nat) (order : List Nat) (s : S) : Res S :=
  order.foldlM (fun s p => do
    let buf ← gatherAll (gather p) (size p) (sendList isOwner isOwner (old p) (new q))
    scatterAll scat rsize (recvList isOwner isOwner (new q) (old p)) buf s) s

/-- Global index sent for a local column: none for columns with attribute 2, which is `overlap`. A column that is not in the index
set is a null pointer. dune/istl/matrixredistribute.hh:541-551, 624-635. -/
def sendGlobal (gmax : Nat) (pis : PIS) (c : Nat) : Res Nat :=
  match pairOf pis c with
  | none => .ub
  | some e => .ok (if e.attr ≠ .overlap then e.g else gmax)

/-- `MatrixSparsityPatternGatherScatter::gather(cont, i, j)`: the static iterator stands at entry `j` or at the end.
dune/istl/matrixredistribute.hh:526-552. -/
def gatherPat (gmax : Nat) (pis : PIS) (A : SpMat B) (i j : Nat) : Res Nat :=
  match (A.row i)[j]? with
  | none => .ok gmax
  | some e => sendGlobal gmax pis e.1

/-- `MatrixRowGatherScatter::gather(cont, i, j)`: at the end of the row the end iterator is dereferenced.
dune/istl/matrixredistribute.hh:608-637. -/
def gatherVal (gmax : Nat) (pis : PIS) (A : SpMat B) (i j : Nat) : Res (Nat × B) :=
  match (A.row i)[j]? with
  | none => .ub
  | some e => do
    let g ← sendGlobal gmax pis e.1
    .ok (g, e.2)

/-- `sparsity[i].insert(c)` with `n` sets. dune/istl/matrixredistribute.hh:560, 565. -/
def insertAt (n : Nat) (sp : Nat → List Nat) (i c : Nat) : Res (Nat → List Nat) :=
  if i < n then .ok (upd sp i (setInsert c (sp i))) else .ub

/-- `MatrixSparsityPatternGatherScatter::scatter(cont, gi, i, j)`: unknown columns are ignored; for columns that are not owned the
transposed position is inserted as well. dune/istl/matrixredistribute.hh:553-587. -/
def scatterPat (gmax : Nat) (new : PIS) (sp : Nat → List Nat) (gi i : Nat) : Res (Nat → List Nat) :=
  if gi = gmax then .ok sp
  else match lookup new gi with
    | none => .ok sp
    | some ip => do
      let sp ← insertAt new.length sp i ip.loc
      if ip.attr ≠ .owner then insertAt new.length sp ip.loc i else .ok sp

/-- The diagonal position of a row that is not owned. dune/istl/matrixredistribute.hh:288-293. -/
def insertDiag (n : Nat) (sp : Nat → List Nat) (e : Idx) : Res (Nat → List Nat) :=
  if e.attr ≠ .owner then insertAt n sp e.loc e.loc else .ok sp

/-- First loop of `storeSparsityPattern(m)`: the diagonal of the rows that are not owned; counts the entries.
dune/istl/matrixredistribute.hh:287-296. -/
def storeLoop (new : PIS) (sp : Nat → List Nat) : Res ((Nat → List Nat) × Nat) :=
  new.foldlM (fun s e => do
    let sp ← insertDiag new.length s.1 e
    .ok (sp, s.2 + (sp e.loc).length)) (sp, 0)

/-- `storeSparsityPattern(m)`: the matrix is built only if there are entries. dune/istl/matrixredistribute.hh:276-331. -/
def storeSparsityPattern (new : PIS) (sp : Nat → List Nat) (junk : B) (m : SpMat B) : Res (SpMat B) := do
  let s ← storeLoop new sp
  if 0 < s.2 then .ok ⟨new.length, new.length, fun i => (s.1 i).map fun c => (c, junk)⟩ else .ok m

/-- `matrix[i][c] = b`; undefined outside the pattern. dune/istl/matrixredistribute.hh:643. -/
def putAt (A : SpMat B) (i c : Nat) (b : B) : Res (SpMat B) :=
  if i < A.n ∧ c ∈ (A.row i).map Prod.fst then
    .ok { A with row := upd A.row i ((A.row i).map fun e => if e.1 = c then (c, b) else e) }
  else .ub

/-- `MatrixRowGatherScatter::scatter(cont, data, i, j)`. dune/istl/matrixredistribute.hh:638-650. -/
def scatterVal (gmax : Nat) (new : PIS) (A : SpMat B) (d : Nat × B) (i : Nat) : Res (SpMat B) :=
  if d.1 = gmax then .ok A
  else match lookup new d.1 with
    | none => .ok A
    | some ip => putAt A i ip.loc d.2

/-- `setOverlapRowsToDirichlet()`: `one` is the identity block. dune/istl/matrixredistribute.hh:421-444. -/
def setDirichlet [Zero B] (one : B) (new : PIS) (A : SpMat B) : SpMat B :=
  new.foldl (fun A e => if e.attr ≠ .owner then
    { A with row := upd A.row e.loc ((A.row e.loc).map fun c => (c.1, if c.1 = e.loc then one else 0)) } else A) A

/-- The arrival orders of the three communications on a process. -/
structure Orders where
  sizes : List Nat
  pattern : List Nat
  values : List Nat

/-- The row sizes of the new owner rows: `setNoRows`, then the first communication.
dune/istl/matrixredistribute.hh:183-186, 486-494, 670-682, 766-767. -/
def newRowSizes (old new : Nat → PIS) (A : Nat → SpMat B) (q : Nat) (order : List Nat) : Nat → Nat :=
  redistributeOn old new (fun p i => ((A p).row i).length) (fun _ => 0) q order

/-- `redistributeSparsityPattern(...)` on process `q`, then the built matrix. dune/istl/matrixredistribute.hh:662-729. -/
def redistributePattern (gmax : Nat) (old new : Nat → PIS) (A : Nat → SpMat B) (junk : B) (m : SpMat B) (q : Nat) (o : Orders) :
    Res (SpMat B) := do
  let sp ← redistributeVar old new (fun p => gatherPat gmax (old p) (A p)) (fun p i => ((A p).row i).length)
    (scatterPat gmax (new q)) (newRowSizes old new A q o.sizes) q o.pattern (fun _ => [])
  storeSparsityPattern (new q) sp junk m

/-- `redistributeMatrixEntries(...)` on process `q`. dune/istl/matrixredistribute.hh:756-801. -/
def redistributeEntries [Zero B] (gmax : Nat) (one : B) (old new : Nat → PIS) (A : Nat → SpMat B) (N : SpMat B) (q : Nat) (o : Orders) :
    Res (SpMat B) := do
  let N ← redistributeVar old new (fun p => gatherVal gmax (old p) (A p)) (fun p i => ((A p).row i).length)
    (scatterVal gmax (new q)) (newRowSizes old new A q o.sizes) q o.values N
  .ok (setDirichlet one (new q) N)

/-- `redistributeMatrix(origMatrix, newMatrix, origComm, newComm, ri)` on process `q`; `m` is the empty matrix passed in.
dune/istl/matrixredistribute.hh:819-828. -/
def redistributeMatrix [Zero B] (gmax : Nat) (one junk : B) (old new : Nat → PIS) (A : Nat → SpMat B) (m : SpMat B) (q : Nat) (o : Orders) :
    Res (SpMat B) := do
  let N ← redistributePattern gmax old new A junk m q o
  redistributeEntries gmax one old new A N q o

end Par
end Istl

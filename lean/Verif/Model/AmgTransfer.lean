import Verif.Model.MatMat

/-!
# AMG transfer operators and Galerkin product, sequential case: dune/istl/paamg/transfer.hh, dune/istl/paamg/galerkin.hh

The aggregates map is an array over the fine vertices. The code stores aggregate numbers and the two special values in one integer
type; here they are three constructors (number of vertices below `max-1` assumed).
-/

namespace Istl
namespace Amg

/-- An entry of the aggregates map: `UNAGGREGATED`, `ISOLATED`, or the number of an aggregate.
dune/istl/paamg/aggregates.hh:1668-1672. -/
inductive Agg where
  | unagg
  | iso
  | id (a : Nat)
  deriving DecidableEq, Repr

/-- An aggregate number used as an index; using `UNAGGREGATED` as an index is out of bounds. -/
def Agg.index : Agg → Res Nat
  | .id a => .ok a
  | _ => .ub

variable {X B K : Type}

/-- `*begin *= damp` for the entries of the coarse vector. dune/istl/paamg/transfer.hh:117-118. -/
def dampAll [SMul K X] (damp : K) (coarse : List X) : List X := coarse.map fun x => damp • x

/-- One pass of the prolongation loop. dune/istl/paamg/transfer.hh:123-128. -/
def prolongStep [Add X] (agg : List Agg) (coarse : List X) (i : Nat) (fine : List X) : Res (List X) := do
  let v ← rd agg i
  if v = .iso then .ok fine
  else do
    let a ← v.index
    let c ← rd coarse a
    let f ← rd fine i
    wr fine i (f + c)

/-- `Transfer::prolongateVector(aggregates, coarse, fine, damp)`; returns the new coarse and fine vectors.
dune/istl/paamg/transfer.hh:106-130. -/
def prolongate [Add X] [SMul K X] (agg : List Agg) (coarse fine : List X) (damp : K) : Res (List X × List X) := do
  let coarse := dampAll damp coarse
  let fine ← forRangeM fine.length (fun i fine => prolongStep agg coarse i fine) fine
  .ok (coarse, fine)

/-- One pass of the restriction loop. dune/istl/paamg/transfer.hh:146-150. -/
def restrictStep [Add X] (agg : List Agg) (fine : List X) (i : Nat) (coarse : List X) : Res (List X) := do
  let v ← rd agg i
  if v = .iso then .ok coarse
  else do
    let a ← v.index
    let c ← rd coarse a
    let f ← rd fine i
    wr coarse a (c + f)

/-- `Transfer::restrictVector(aggregates, coarse, fine, comm)`. dune/istl/paamg/transfer.hh:134-151. -/
def restrict [Add X] [Zero X] (agg : List Agg) (coarse fine : List X) : Res (List X) :=
  forRangeM fine.length (fun i c => restrictStep agg fine i c) (coarse.map fun _ => 0)

/-- `coarse = 0`: every stored block is set to zero. dune/istl/paamg/galerkin.hh:645. -/
def zeroMat [Zero B] (C : SpMat B) : SpMat B := { C with row := fun i => (C.row i).map fun e => (e.1, 0) }

/-- Loop body over the columns. dune/istl/paamg/galerkin.hh:656-660. -/
def galerkinCol [Add B] (agg : List Agg) (a : Nat) (C : SpMat B) (e : Nat × B) : Res (SpMat B) := do
  let w ← rd agg e.1
  if w = .iso then .ok C
  else do
    let b ← w.index
    MatMat.accEntry (fun c (x : B) (_ : Unit) => c + x) e.2 () a b C

/-- Loop body over the rows. dune/istl/paamg/galerkin.hh:650-661. -/
def galerkinRow [Add B] (agg : List Agg) (i : Nat) (row : Row B) (C : SpMat B) : Res (SpMat B) := do
  let v ← rd agg i
  if v = .iso then .ok C
  else do
    let a ← v.index
    row.foldlM (fun C e => galerkinCol agg a C e) C

/-- `rowsize[i] = coarse[i][i]`. dune/istl/paamg/galerkin.hh:665-667. -/
def getDiag (C : SpMat B) (i : Nat) (rs : List B) : Res (List B) := do
  let d ← (C.row i).get i
  wr rs i d

/-- `coarse[i][i] = rowsize[i]`. dune/istl/paamg/galerkin.hh:669-670. -/
def putDiag (rs : List B) (i : Nat) (C : SpMat B) : Res (SpMat B) := do
  let d ← rd rs i
  let r ← (C.row i).modify i (fun _ => d)
  .ok { C with row := upd C.row i r }

/-- `BaseGalerkinProduct::calculate`; `comm` is `copyOwnerToAll(rowsize,rowsize)`, the identity in the sequential case
(dune/istl/paamg/pinfo.hh:65-67). dune/istl/paamg/galerkin.hh:641-678. -/
def calculate [Add B] [Zero B] (comm : List B → Res (List B)) (A : SpMat B) (agg : List Agg) (C : SpMat B) :
    Res (SpMat B) := do
  let C ← forRangeM A.n (fun i C => galerkinRow agg i (A.row i) C) (zeroMat C)
  let rs ← forRangeM C.n (fun i rs => getDiag C i rs) (List.replicate C.n 0)
  let rs ← comm rs
  forRangeM C.n (fun i C => putDiag rs i C) C

end Amg
end Istl

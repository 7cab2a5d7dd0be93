import Verif.Model.MatMat

/-!
# `MatrixIndexSet`: dune/istl/matrixindexset.hh

Simplification: the 32 bit indices do not overflow.
-/

namespace Istl
namespace IndexSet
open Bcrs

/-- `RowIndexSet = std::variant<FlatSet, std::set<Index>>`; both store ascending sequences. dune/istl/matrixindexset.hh:42-59. -/
inductive RowSet where
  | flat (l : List Nat)
  | set (l : List Nat)
  deriving DecidableEq, Repr

/-- The stored sequence, as `begin()`..`end()` deliver it. -/
def RowSet.elems : RowSet → List Nat
  | .flat l => l
  | .set l => l

/-- `FlatSet::insert`: `lower_bound`, then `vector::insert` unless found. dune/istl/matrixindexset.hh:49-53. -/
def flatInsert (l : List Nat) (v : Nat) : Res (List Nat) := do
  let it ← lowerBound l l.length v
  if it = l.length then .ok (l.take it ++ v :: l.drop it)
  else do
    let x ← rd l it
    if x ≠ v then .ok (l.take it ++ v :: l.drop it) else .ok l

/-- `FlatSet::contains`: `std::binary_search`, i.e. `lower_bound` and `!(v < *it)`. dune/istl/matrixindexset.hh:54-56. -/
def flatContains (l : List Nat) (v : Nat) : Res Bool := do
  let it ← lowerBound l l.length v
  if it = l.length then .ok false
  else do
    let x ← rd l it
    .ok (decide (¬ v < x))

/-- The data members. dune/istl/matrixindexset.hh:222-225. -/
structure Obj where
  indices : List RowSet
  rows : Nat
  cols : Nat
  maxV : Nat

/-- Constructor with the matrix size. dune/istl/matrixindexset.hh:93-96. -/
def ctor (rows cols maxV : Nat) : Obj := { indices := List.replicate rows (.flat []), rows := rows, cols := cols, maxV := maxV }

/-- Constructor without sizes. dune/istl/matrixindexset.hh:83-84. -/
def ctorEmpty (maxV : Nat) : Obj := { indices := [], rows := 0, cols := 0, maxV := maxV }

/-- `resize(rows, cols)`: `std::vector::resize` keeps the first rows and appends empty ones. dune/istl/matrixindexset.hh:99-103. -/
def Obj.resize (X : Obj) (rows cols : Nat) : Obj :=
  { X with rows := rows, cols := cols, indices := X.indices.take rows ++ List.replicate (rows - X.indices.length) (.flat []) }

/-- The new row after `add`. dune/istl/matrixindexset.hh:113-131. -/
def addRow (maxV : Nat) (r : RowSet) (col : Nat) : Res RowSet :=
  match r with
  | .set l => .ok (.set (MatMat.setInsert col l))
  | .flat l =>
    if l.length < maxV then do
      let l' ← flatInsert l col
      .ok (.flat l')
    else do
      let c ← flatContains l col
      if ¬ c then .ok (.set (MatMat.setInsert col l)) else .ok (.flat l)

/-- `add(row, col)`. dune/istl/matrixindexset.hh:112-132. -/
def Obj.add (X : Obj) (row col : Nat) : Res Obj :=
  match X.indices[row]? with
  | none => .ub
  | some r => do
    let r' ← addRow X.maxV r col
    .ok { X with indices := X.indices.set row r' }

/-- `rowsize(row)`. dune/istl/matrixindexset.hh:162-166. -/
def Obj.rowsize (X : Obj) (row : Nat) : Res Nat :=
  match X.indices[row]? with
  | none => .ub
  | some r => .ok r.elems.length

/-- `size()`. dune/istl/matrixindexset.hh:135-140. -/
def Obj.size (X : Obj) : Res Nat := forRangeM X.rows (fun i e => do
  let k ← X.rowsize i
  .ok (e + k)) 0

/-- `columnIndices(row)`. dune/istl/matrixindexset.hh:157-159. -/
def Obj.columnIndices (X : Obj) (row : Nat) : Res (List Nat) :=
  match X.indices[row]? with
  | none => .ub
  | some r => .ok r.elems

/-- `import(m, rowOffset, colOffset)`. dune/istl/matrixindexset.hh:175-193. -/
def Obj.import {α : Type} (X : Obj) (A : SpMat α) (ro co : Nat) : Res Obj :=
  forRangeM A.n (fun i X => (A.row i).foldlM (fun X e => X.add (i + ro) (e.1 + co)) X) X

variable {B : Type}

/-- The `setrowsize` loop. dune/istl/matrixindexset.hh:205-206. -/
def exportSizes (X : Obj) (i : Nat) : BC B Unit := do
  let k ← Cmd.lift (X.rowsize i)
  setrowsize i k

/-- The body of the loop that copies the indices. dune/istl/matrixindexset.hh:210-214. -/
def exportRow (X : Obj) (i : Nat) : BC B Unit := do
  let l ← Cmd.lift (X.columnIndices i)
  setIndicesNoSort i l

/-- A loop over `i < n` of calls. -/
def loopRows (f : Nat → BC B Unit) : List Nat → BC B Unit
  | [] => pure ()
  | i :: is => do
    f i
    loopRows f is

/-- `exportIdx(matrix)`. dune/istl/matrixindexset.hh:200-218. -/
def exportIdx (X : Obj) : BC B Unit := do
  setSize X.rows X.cols 0
  setBuildMode .random
  loopRows (exportSizes X) (List.range X.rows)
  endrowsizes
  loopRows (exportRow X) (List.range X.rows)
  endindices

end IndexSet
end Istl

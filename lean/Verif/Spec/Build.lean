import Verif.Model.Bcrs
import Mathlib.Data.Finset.Sort
import Mathlib.Algebra.BigOperators.Group.Finset.Basic

/-!
# Specification of matrix construction
What the building calls mean, in terms of sets of columns; no storage.
-/

namespace Istl
namespace Bcrs

/-- The calls that announce row sizes. -/
inductive SizeOp where
  | set (i sz : Nat)
  | inc (i sz : Nat)

/-- the row a call refers to -/
def SizeOp.row : SizeOp → Nat
  | .set i _ => i
  | .inc i _ => i

/-- Announced size of each row after the calls. -/
def announced (ops : List SizeOp) : Nat → Nat :=
  ops.foldl (fun f op => match op with
    | .set i sz => Function.update f i sz
    | .inc i sz => Function.update f i (f i + sz)) (fun _ => 0)

/-- `addindex(i,j)` has to be accepted: `j` is a column, and it is in row `i` already or there is room for it. -/
def Accept (m : Nat) (cap : Nat → Nat) (S : Nat → Finset Nat) (i j : Nat) : Prop :=
  j < m ∧ (j ∈ S i ∨ (S i).card < cap i)

instance (m : Nat) (cap : Nat → Nat) (S : Nat → Finset Nat) (i j : Nat) : Decidable (Accept m cap S i j) := by
  unfold Accept; infer_instance

/-- The pattern collected by a sequence of insertions, rejected ones being ignored. -/
def collected (m : Nat) (cap : Nat → Nat) (calls : List (Nat × Nat)) : Nat → Finset Nat :=
  calls.foldl (fun S c => if Accept m cap S c.1 c.2 then Function.update S c.1 (insert c.2 (S c.1)) else S) (fun _ => ∅)

variable {B : Type}

/-- One size call. -/
def SizeOp.run : SizeOp → BC B Unit
  | .set i sz => setrowsize i sz
  | .inc i sz => incrementrowsize i sz

/-- The user program: the size calls. -/
def runSizes : List SizeOp → BC B Unit
  | [] => pure ()
  | op :: ops => do
    op.run
    runSizes ops

/-- `try { c } catch (...) {}`. -/
def attempt (c : BC B Unit) : BC B Unit := fun s =>
  match c s with
  | .ok _ s' => .ok () s'
  | .throw _ s' => .ok () s'
  | .ub => .ub

/-- The user program: insertions, exceptions caught and ignored. -/
def runAdds : List (Nat × Nat) → BC B Unit
  | [] => pure ()
  | c :: cs => do
    attempt (addindex c.1 c.2)
    runAdds cs

/-- The user program: insertions, the first exception ends it. -/
def runAddsStrict : List (Nat × Nat) → BC B Unit
  | [] => pure ()
  | c :: cs => do
    addindex c.1 c.2
    runAddsStrict cs

/-- The user program of the row-wise mode: for each row insert columns (any order, with repetitions), then `++it`. -/
def buildRows : CIter → List (List Nat) → BC B Unit
  | _, [] => pure ()
  | c, cols :: todo => do
    let c ← (cols.foldl CIter.insert c).next
    buildRows c todo

/-- One access `upd(A.entry(row,col))` of the implicit mode, e.g. `A.entry(i,j) += v` or `A.entry(i,j) = v`. -/
structure Access (B : Type) where
  row : Nat
  col : Nat
  upd : B → B

/-- The columns accessed in row `i`. -/
def accCols (acc : List (Access B)) (i : Nat) : Finset Nat := ((acc.filter fun a => a.row = i).map Access.col).toFinset

/-- The accesses to entry `(i,j)` applied, in program order, to the initial value `z`. -/
def accVal (acc : List (Access B)) (i j : Nat) (z : B) : B :=
  (acc.filter fun a => a.row = i ∧ a.col = j).foldl (fun v a => a.upd v) z

/-- The user program: accesses. -/
def runEntries : List (Access B) → BC B Unit
  | [] => pure ()
  | a :: as => do
    entry a.row a.col a.upd
    runEntries as

end Bcrs

open Bcrs
variable {B : Type}

/-- The whole random-mode program, insertions that throw being caught and ignored. -/
def randomProgram (n m nnz : Nat) (sizes : List SizeOp) (calls : List (Nat × Nat)) : BC B Unit := do
  ctor n m nnz .random
  runSizes sizes
  endrowsizes
  runAdds calls
  endindices

/-- The whole row-wise program: constructor, `createbegin()`, one list of inserted columns per row. -/
def rowWiseProgram (n m nnz : Nat) (bm : BuildMode) (todo : List (List Nat)) : BC B Unit := do
  ctor n m nnz bm
  let c ← createbegin
  buildRows c todo

/-- The whole program of the implicit mode: constructor, accesses, `compress()`. -/
def implicitProgram (n m avg : Nat) (cbs : ℚ) (acc : List (Access B)) : BC B Unit := do
  ctorImplicit n m avg cbs .implicit
  runEntries acc
  compress

/-- Enough room at every row: what rows `0..i` need never exceeds the overflow area, the buffers of rows `0..i-1` and one
slot of the buffer of row `i`. -/
def RoomAtEveryRow (n avg : Nat) (cbs : ℚ) (acc : List (Access B)) : Prop :=
  ∀ i, i < n → ∑ r ∈ Finset.range (i + 1), (accCols acc r).card ≤ osize n avg cbs + i * avg + 1

end Istl

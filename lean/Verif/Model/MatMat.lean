import Verif.Model.Gsetc
import Verif.Spec.Build
import Mathlib.Data.Matrix.Basic

/-!
# Sparse matrix products: dune/istl/matrixmatrix.hh

The factors are built matrices. The result is constructed in the memory model; the values are then accumulated on its public view.
Simplification: a failing `assert` is `ub`.
-/

namespace Istl
namespace MatMat
open Bcrs

variable {α β γ S : Type}

/-- `B[k]`; outside the row array undefined. dune/istl/bcrsmatrix.hh:546-556 (non-checking build). -/
def rowAt (B : SpMat β) (k : Nat) : Res (Row β) := if k < B.n then .ok (B.row k) else .ub

/-- `NonzeroPatternTraverser<0>::traverse`. dune/istl/matrixmatrix.hh:41-68. -/
def traverse0 (func : α → β → Nat → Nat → S → Res S) (A : SpMat α) (B : SpMat β) (s : S) : Res S :=
  if A.m ≠ B.n then .throw .istlError
  else forRangeM A.n (fun i s =>
    (A.row i).foldlM (fun s col => do
      let br ← rowAt B col.1
      br.foldlM (fun s bcol => func col.2 bcol.2 i bcol.1 s) s) s) s

/-- `NonzeroPatternTraverser<1>::traverse`. dune/istl/matrixmatrix.hh:70-96. -/
def traverse1 (func : α → β → Nat → Nat → S → Res S) (A : SpMat α) (B : SpMat β) (s : S) : Res S :=
  if A.n ≠ B.n then .throw .istlError
  else forRangeM A.n (fun i s =>
    (A.row i).foldlM (fun s col => do
      let br ← rowAt B i
      br.foldlM (fun s bcol => func col.2 bcol.2 col.1 bcol.1 s) s) s) s

/-- A functor for variant 2: `operator()`, `nextCol`, `nextRow`, `do_break`. -/
structure Func2 (α β S : Type) where
  call : α → β → Nat → S → Res S
  nextCol : S → Res S
  nextRow : S → Res S
  doBreak : Bool

/-- The loop over `mcol` for fixed `mrow`, `mtcol`: the first list are the entries from `mcol` on, the second those from `mtrow` on;
returns `funcCalled`. dune/istl/matrixmatrix.hh:124-137. -/
def walk (F : Func2 α β S) (j : Nat) : List (Nat × α) → List (Nat × β) → Bool → S → Res (Bool × S)
  | [], _, called, s => .ok (called, s)
  | (k, a) :: as, bs, called, s =>
    match bs.dropWhile (fun f => f.1 < k) with
    | [] => walk F j as [] called s
    | (k', b) :: bs' =>
      if k' = k then do
        let s ← F.call a b j s
        if F.doBreak then .ok (true, s) else walk F j as ((k', b) :: bs') true s
      else walk F j as ((k', b) :: bs') called s

/-- The body of the loop over `mtcol`. dune/istl/matrixmatrix.hh:118-143. -/
def traverse2Col (F : Func2 α β S) (A : SpMat α) (B : SpMat β) (i j : Nat) (s : S) : Res S := do
  let (called, s) ← walk F j (A.row i) (B.row j) false s
  if called then F.nextCol s else .ok s

/-- The body of the loop over `mrow`. dune/istl/matrixmatrix.hh:110-145. -/
def traverse2Row (F : Func2 α β S) (A : SpMat α) (B : SpMat β) (i : Nat) (s : S) : Res S := do
  let s ← forRangeM B.n (fun j s => traverse2Col F A B i j s) s
  F.nextRow s

/-- `NonzeroPatternTraverser<2>::traverse`. dune/istl/matrixmatrix.hh:96-148. -/
def traverse2 (F : Func2 α β S) (A : SpMat α) (B : SpMat β) (s : S) : Res S :=
  if A.m ≠ B.m then .throw .istlError
  else forRangeM A.n (fun i s => traverse2Row F A B i s) s

/-- `std::set<size_t>::insert(j)` on the ascending list of elements. dune/istl/matrixmatrix.hh:239. -/
def setInsert (j : Nat) (l : List Nat) : List Nat := l.takeWhile (· < j) ++ j :: (l.dropWhile (· < j)).dropWhile (· == j)

/-- `entries[i].insert(j)`: `MatrixInitializer<1>::operator()`, also used for variant 0. dune/istl/matrixmatrix.hh:236-240. -/
def insertEntry (rows : Nat) (_ : α) (_ : β) (i j : Nat) (e : Nat → List Nat) : Res (Nat → List Nat) :=
  if i < rows then .ok (upd e i (setInsert j (e i))) else .ub

/-- What is needed to set up the result: sizes, announced number of non-zeroes, and for each row the columns passed to
`CreateIterator::insert`. -/
structure Plan where
  rows : Nat
  cols : Nat
  nnz : Nat
  todo : List (List Nat)

/-- Counting and `initPattern` for variants 0, 1: `nonzeros()` sums the sizes of the sets, `initPattern` inserts the elements of each.
dune/istl/matrixmatrix.hh:245-266. -/
def planOfSets (rows cols : Nat) (e : Nat → List Nat) : Plan :=
  { rows := rows, cols := cols, nnz := ((List.range rows).map fun i => (e i).length).sum, todo := (List.range rows).map e }

/-- Variant 0: sizes `m1.N(), m2.M()`. dune/istl/matrixmatrix.hh:437-446, 475-481. -/
def plan0 (A : SpMat α) (B : SpMat β) : Res Plan := do
  let e ← traverse0 (insertEntry A.n) A B (fun _ => [])
  .ok (planOfSets A.n B.m e)

/-- Variant 1: sizes `m1.M(), m2.M()`. dune/istl/matrixmatrix.hh:448-457, 475-481. -/
def plan1 (A : SpMat α) (B : SpMat β) : Res Plan := do
  let e ← traverse1 (insertEntry A.m) A B (fun _ => [])
  .ok (planOfSets A.m B.m e)

/-- `MatrixInitializer` for variant 2: counts. dune/istl/matrixmatrix.hh:181-220. -/
def counter : Func2 α β Nat := { call := fun _ _ _ c => .ok (c + 1), nextCol := .ok, nextRow := .ok, doBreak := true }

/-- `SparsityPatternInitializer`: `insert(j)`, `++rowiter`. The calls on the create iterator do not influence the traversal; they are
recorded as (current row, finished rows). dune/istl/matrixmatrix.hh:151-178. -/
def patternInit : Func2 α β (List Nat × List (List Nat)) :=
  { call := fun _ _ j s => .ok (s.1 ++ [j], s.2), nextCol := .ok, nextRow := fun s => .ok ([], s.2 ++ [s.1]), doBreak := true }

/-- Variant 2: sizes `m1.N(), m2.N()`. dune/istl/matrixmatrix.hh:460-469, 475-488. -/
def plan2 (A : SpMat α) (B : SpMat β) : Res Plan := do
  let c ← traverse2 counter A B 0
  let t ← traverse2 patternInit A B ([], [])
  .ok { rows := A.n, cols := B.n, nnz := c, todo := t.2 }

/-- `res.setSize(...)`, `res.setBuildMode(row_wise)` and the building of the pattern. dune/istl/matrixmatrix.hh:481-488. -/
def setup (p : Plan) : BC γ Unit := do
  setSize p.rows p.cols p.nnz
  setBuildMode .rowWise
  let c ← createbegin
  buildRows c p.todo

/-- `res = 0.0` on the view. dune/istl/matrixmatrix.hh:493, 332. -/
def zeroed [Zero γ] (v : Nat × Nat × List (Row γ)) : SpMat γ :=
  { n := v.1, m := v.2.1, row := fun i => (v.2.2.getD i []).map fun e => (e.1, 0) }

/-- `addM(this->mat[i][j], t1, t2)` with `add res a b` the block kernel. dune/istl/matrixmatrix.hh:385-389, 404-408. -/
def accEntry (add : γ → α → β → γ) (a : α) (b : β) (i j : Nat) (C : SpMat γ) : Res (SpMat γ) := do
  let r ← rowAt C i
  let r' ← r.modify j (fun c => add c a b)
  .ok { C with row := upd C.row i r' }

/-- `EntryAccumulator<...,2>`: the state is the matrix, the current row and the position of `col` in it.
dune/istl/matrixmatrix.hh:319-352, 412-430. -/
def accumulator2 (add : γ → α → β → γ) : Func2 α β (SpMat γ × Nat × Nat) :=
  { call := fun a b j s => do
      let r ← rowAt s.1 s.2.1
      let e ← rd r s.2.2
      if e.1 ≠ j then .ub
      else do
        let r' ← wr r s.2.2 (e.1, add e.2 a b)
        .ok ({ s.1 with row := upd s.1.row s.2.1 r' }, s.2.1, s.2.2)
    nextCol := fun s => .ok (s.1, s.2.1, s.2.2 + 1)
    nextRow := fun s => .ok (s.1, s.2.1 + 1, 0)
    doBreak := false }

/-- `EntryAccumulatorFather`: `col=row->begin()` dereferences the first row; a matrix without rows has none.
dune/istl/matrixmatrix.hh:329-334. -/
def accStart (C : SpMat γ) : Res Unit := if C.n = 0 then .ub else .ok ()

/-- The tail of `matMultMat<transpose>`: set up the result, read it, accumulate. dune/istl/matrixmatrix.hh:481-496. -/
def finish [Zero γ] (p : Plan) (acc : SpMat γ → Res (SpMat γ)) : BC γ (SpMat γ) := do
  setup p
  let s ← Cmd.get
  let v ← Cmd.lift (view s)
  Cmd.lift (accStart (zeroed v))
  Cmd.lift (acc (zeroed v))

/-- `matMultMat<0>`. dune/istl/matrixmatrix.hh:471-497. -/
def matMultMat0 [Zero γ] (add : γ → α → β → γ) (A : SpMat α) (B : SpMat β) : BC γ (SpMat γ) := do
  let p ← Cmd.lift (plan0 A B)
  finish p (traverse0 (accEntry add) A B)

/-- `matMultMat<1>`. dune/istl/matrixmatrix.hh:471-497. -/
def matMultMat1 [Zero γ] (add : γ → α → β → γ) (A : SpMat α) (B : SpMat β) : BC γ (SpMat γ) := do
  let p ← Cmd.lift (plan1 A B)
  finish p (traverse1 (accEntry add) A B)

/-- Run the accumulation of variant 2. dune/istl/matrixmatrix.hh:494-495. -/
def accumulate2 (add : γ → α → β → γ) (A : SpMat α) (B : SpMat β) (C : SpMat γ) : Res (SpMat γ) := do
  let s ← traverse2 (accumulator2 add) A B (C, 0, 0)
  .ok s.1

/-- `matMultMat<2>`. dune/istl/matrixmatrix.hh:471-497. -/
def matMultMat2 [Zero γ] (add : γ → α → β → γ) (A : SpMat α) (B : SpMat β) : BC γ (SpMat γ) := do
  let p ← Cmd.lift (plan2 A B)
  finish p (accumulate2 add A B)

section Blocks
variable {T : Type} [Semiring T] {n m k : Nat}

/-- `res[r][c] += v`. -/
def bump (res : Matrix (Fin n) (Fin m) T) (r : Fin n) (c : Fin m) (v : T) : Matrix (Fin n) (Fin m) T :=
  fun r' c' => if r' = r ∧ c' = c then res r' c' + v else res r' c'

/-- `addMatMultMat`. dune/istl/matrixmatrix.hh:307-317. -/
def addMatMultMat (res : Matrix (Fin n) (Fin m) T) (a : Matrix (Fin n) (Fin k) T) (b : Matrix (Fin k) (Fin m) T) :
    Matrix (Fin n) (Fin m) T :=
  (List.finRange n).foldl (fun res row => (List.finRange m).foldl (fun res col =>
    (List.finRange k).foldl (fun res i => bump res row col (a row i * b i col)) res) res) res

/-- `addTransposeMatMultMat`. dune/istl/matrixmatrix.hh:295-305. -/
def addTransposeMatMultMat (res : Matrix (Fin n) (Fin k) T) (a : Matrix (Fin m) (Fin n) T) (b : Matrix (Fin m) (Fin k) T) :
    Matrix (Fin n) (Fin k) T :=
  (List.finRange m).foldl (fun res i => (List.finRange n).foldl (fun res row =>
    (List.finRange k).foldl (fun res col => bump res row col (a i row * b i col)) res) res) res

/-- `addMatMultTransposeMat`. dune/istl/matrixmatrix.hh:282-293. -/
def addMatMultTransposeMat (res : Matrix (Fin n) (Fin k) T) (a : Matrix (Fin n) (Fin m) T) (b : Matrix (Fin k) (Fin m) T) :
    Matrix (Fin n) (Fin k) T :=
  (List.finRange n).foldl (fun res row => (List.finRange k).foldl (fun res col =>
    (List.finRange m).foldl (fun res i => bump res row col (a row i * b col i)) res) res) res

end Blocks
end MatMat
end Istl

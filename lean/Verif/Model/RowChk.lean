import Verif.Model.RowProg

/-!
# Statements on rows and entries with `DUNE_ISTL_WITH_CHECKING`

Every check comes before the statement writes anything; a check that fails throws. The exception is caught by the caller and the program
goes on. Left out: the check of the build stage in `BCRSMatrix::operator[]` (bcrsmatrix.hh:548-549); in these programs only matrices without
rows are not completely built, and for them the next check throws the same exception.
-/

namespace Istl
namespace RowStmt
open Bcrs BcrsWorld Iter
variable {B : Type}

/-- Statements; row and column numbers are arbitrary. -/
inductive CStmt (B : Type) where
  /-- a statement on whole matrices (C08) -/
  | whole (op : Op B)
  /-- `A_x[r][c] = …`, `A_x[r][c] += …` -/
  | entry (f : B → B) (x r c : Nat)
  /-- `A_x[r] = k`, `A_x[r] *= k` -/
  | map (f : B → B) (x r : Nat)
  /-- `A_x[r] += A_y[s]`, `-=`, `axpy` -/
  | combine (f : B → B → B) (x r y s : Nat)
  /-- `A_x[r] = A_y[s]` -/
  | copy (x r y s : Nat)

/-- `A_x[r]` with checks. dune/istl/bcrsmatrix.hh:545-554. -/
def chkRow (w : World B) (x r : Nat) : Res Win := do
  let o ← obj w x
  match o.rows with
  | none => .throw .bcrsMatrixError
  | some _ => if r ≥ o.n then .throw .bcrsMatrixError else RowIt.deref ⟨o.rows, r⟩

/-- `win.includesindexset(src)`; the early `return false` is a flag here. dune/istl/bvector.hh:961-970. -/
def includes (h : Heap B) (win src : Win) : Res Bool :=
  forRangeM src.sz (fun i (b : Bool) =>
    if b then do
      let c ← (cell src i).index h
      let it ← colFind h win c
      .ok (!(it.equals (colEnd win)))
    else .ok false) true

/-- All checks of a statement. dune/istl/bcrsmatrix.hh:545-554, dune/istl/bvector.hh:776-807, 1037-1042, dune/istl/basearray.hh:331-337. -/
def check (w : World B) : CStmt B → Res Unit
  | .whole _ => .ok ()
  | .entry _ x r c => do
    let win ← chkRow w x r
    let _ ← access w.h win c
    .ok ()
  | .map _ x r => do
    let _ ← chkRow w x r
    .ok ()
  | .combine _ x r y s => do
    let win ← chkRow w x r
    let src ← chkRow w y s
    let b ← includes w.h win src
    if b then .ok () else .throw .istlError
  | .copy x r y s => do
    let win ← chkRow w x r
    let src ← chkRow w y s
    if win.sz ≠ src.sz then .throw .istlError else .ok ()

/-- `A_x[r][c] = f(A_x[r][c])`. dune/istl/basearray.hh:331-337. -/
def entryWrite (f : B → B) (x r c : Nat) (w : World B) : Res (World B) := do
  let win ← rowRef w x r
  let it ← access w.h win c
  let b ← it.deref w.h
  put w it (f b)

/-- What a statement does after its checks. dune/istl/bvector.hh:765-821, 1037-1058. -/
def effect (w : World B) : CStmt B → Res (World B)
  | .whole op => step w op
  | .entry f x r c => entryWrite f x r c w
  | .map f x r => rowMap f x r w
  | .combine f x r y s => rowCombine f x r y s w
  | .copy x r y s => rowCopy x r y s w

/-- One statement; a failed check is reported and has changed nothing. dune/istl/bcrsmatrix.hh:545-554, dune/istl/bvector.hh:776-807. -/
def execChk (w : World B) (st : CStmt B) : Res (World B × Option Exc) :=
  match check w st with
  | .ok _ => do
    let w' ← effect w st
    .ok (w', none)
  | .throw e => .ok (w, some e)
  | .ub => .ub

/-- A program, every exception caught and noted. -/
def runChk : World B → List (CStmt B) → Res (World B × List (Option Exc))
  | w, [] => .ok (w, [])
  | w, st :: rest => do
    let (w, e) ← execChk w st
    let (w, es) ← runChk w rest
    .ok (w, e :: es)

end RowStmt
end Istl

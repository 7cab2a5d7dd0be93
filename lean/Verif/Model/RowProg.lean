import Verif.Model.RowStmt

/-!
# Programs with statements on rows, and functions of rows

Statements of C08 and statements on rows (`Model/RowStmt`) in any order; scalar products, norms and lookups of rows.
-/

namespace Istl
namespace RowStmt
open Bcrs BcrsWorld Iter
variable {B : Type}

/-- One statement of a program. -/
inductive Stmt (B : Type) where
  /-- a statement on whole matrices or entries (C08) -/
  | whole (op : Op B)
  /-- `A_x[r] = k`, `A_x[r] *= k`, `A_x[r] /= k` -/
  | map (f : B → B) (x r : Nat)
  /-- `A_x[r] += A_y[s]`, `-=`, `axpy` -/
  | combine (f : B → B → B) (x r y s : Nat)
  /-- the same with `try { … } catch (ISTLError&) {}` around it -/
  | tryCombine (f : B → B → B) (x r y s : Nat)
  /-- `A_x[r] = A_y[s]` -/
  | copy (x r y s : Nat)

/-- A loop whose body throws, if at all, before it changes anything; the exception ends the loop (`true`) and is caught. -/
def tryRangeM {S : Type} (n : Nat) (f : Nat → S → Res S) (s : S) : Res (S × Bool) :=
  match n with
  | 0 => .ok (s, false)
  | n + 1 => do
    let (s, stop) ← tryRangeM n f s
    if stop then .ok (s, true)
    else match f n s with
      | .ok s' => .ok (s', false)
      | .throw _ => .ok (s, true)
      | .ub => .ub

/-- `try { A_x[r] += A_y[s]; } catch (ISTLError&) {}`. The statement throws in `operator[]` of the target row, before the entry is written.
dune/istl/bvector.hh:776-807, basearray.hh:331-337. -/
def rowTryCombine (f : B → B → B) (x r y s : Nat) (w : World B) : Res (World B) := do
  let win ← rowRef w x r
  let src ← rowRef w y s
  let (w, _) ← tryRangeM src.sz (fun i w => do
    let c ← (cell src i).index w.h
    let it ← access w.h win c
    let old ← it.deref w.h
    let new ← (cell src i).deref w.h
    put w it (f old new)) w
  .ok w

/-- Executing a statement. -/
def exec (w : World B) : Stmt B → Res (World B)
  | .whole op => step w op
  | .map f x r => rowMap f x r w
  | .combine f x r y s => rowCombine f x r y s w
  | .tryCombine f x r y s => rowTryCombine f x r y s w
  | .copy x r y s => rowCopy x r y s w

/-- `A_x[r].one_norm()`, `two_norm2()`, `infinity_norm()`, `dim()`, …: all are a loop over the stored values; `g s b` is the body.
dune/istl/bvector.hh:843-874, 877-938, 948-954. -/
def rowFold {F : Type} (g : F → B → F) (s0 : F) (x r : Nat) (w : World B) : Res F := do
  let win ← rowRef w x r
  forRangeM win.sz (fun i s => do
    let b ← (cell win i).deref w.h
    .ok (g s b)) s0

/-- `A_x[r] * A_y[s]` (scalar product): for each entry of the left row `y[(this->j)[i]]`. dune/istl/bvector.hh:827-838. -/
def rowDot {F : Type} [Zero F] [Add F] (mul : B → B → F) (x r y s : Nat) (w : World B) : Res F := do
  let win ← rowRef w x r
  let src ← rowRef w y s
  forRangeM win.sz (fun i (sum : F) => do
    let a ← (cell win i).deref w.h
    let c ← (cell win i).index w.h
    let it ← access w.h src c
    let b ← it.deref w.h
    .ok (sum + mul a b)) 0

/-- `A_x[r][c]` (read). dune/istl/basearray.hh:331-346. -/
def rowGet (x r c : Nat) (w : World B) : Res B := do
  let win ← rowRef w x r
  let it ← access w.h win c
  it.deref w.h

end RowStmt
end Istl

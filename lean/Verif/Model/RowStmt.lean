import Verif.Model.Iter
import Verif.Model.Gsetc

/-!
# Statements on rows of matrices

`A[r] = k`, `A[r] *= k`, `A[r] += B[s]`, `A[r] = B[s]`, … for `BCRSMatrix` variables: the row type is a window into the arrays of the
matrix (`CompressedBlockVectorWindow`). Over the worlds of C08. A row is looked up once, at the beginning of a statement; the addresses
`p+i`, `j+i` are those of the entry iterators of `Model/Iter`. Checks under `DUNE_ISTL_WITH_CHECKING` are left out.
-/

namespace Istl
namespace RowStmt
open Bcrs BcrsWorld Iter
variable {B : Type}

/-- `A_x[r]`: the window, undefined outside. dune/istl/bcrsmatrix.hh:545-554. -/
def rowRef (w : World B) (x r : Nat) : Res Win := do
  let o ← obj w x
  RowIt.deref ⟨o.rows, r⟩

/-- `p[i]` and `j[i]` of a row. dune/istl/basearray.hh:540-542. -/
def cell (win : Win) (i : Nat) : ColIt := ⟨win.p, win.j, i⟩

/-- `row[c]`: the entry in column `c`. dune/istl/basearray.hh:331-337. -/
def access (h : Heap B) (win : Win) (c : Nat) : Res ColIt := do
  let xs ← h.js.read win.j win.sz
  let lb ← lowerBound xs win.sz c
  if lb = win.sz then .throw .istlError
  else do
    let x ← rd xs lb
    if x ≠ c then .throw .istlError else .ok (cell win lb)

/-- Overwrite an entry. -/
def put (w : World B) (it : ColIt) (b : B) : Res (World B) := do
  let as ← it.store w.h b
  .ok { w with h := { w.h with as := as } }

/-- `A_x[r] = k` (`f _ = k`), `A_x[r] *= k`, `A_x[r] /= k`. dune/istl/bvector.hh:765-770, 810-821, 1054-1058. -/
def rowMap (f : B → B) (x r : Nat) (w : World B) : Res (World B) := do
  let win ← rowRef w x r
  forRangeM win.sz (fun i w => do
    let b ← (cell win i).deref w.h
    put w (cell win i) (f b)) w

/-- `A_x[r] += A_y[s]`, `A_x[r] -= A_y[s]`, `A_x[r].axpy(a, A_y[s])`; `f old new` is the new value. dune/istl/bvector.hh:776-807. -/
def rowCombine (f : B → B → B) (x r y s : Nat) (w : World B) : Res (World B) := do
  let win ← rowRef w x r
  let src ← rowRef w y s
  forRangeM src.sz (fun i w => do
    let c ← (cell src i).index w.h
    let it ← access w.h win c
    let old ← it.deref w.h
    let new ← (cell src i).deref w.h
    put w it (f old new)) w

/-- `A_x[r] = A_y[s]`: nothing for the same row, otherwise the values, then the indices, both as many as this row has entries.
dune/istl/bvector.hh:1037-1051. -/
def rowCopy (x r y s : Nat) (w : World B) : Res (World B) := do
  let win ← rowRef w x r
  let src ← rowRef w y s
  if x = y ∧ r = s then .ok w
  else do
    let w ← forRangeM win.sz (fun i w => do
      let b ← (cell src i).deref w.h
      put w (cell win i) b) w
    forRangeM win.sz (fun i w => do
      let c ← (cell src i).index w.h
      let js ← w.h.js.write (shift win.j i) [c]
      .ok { w with h := { w.h with js := js } }) w

end RowStmt
end Istl

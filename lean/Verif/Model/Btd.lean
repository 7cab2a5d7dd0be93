import Verif.Model.Ilu
import Verif.Spec.Build

/-!
# Block tridiagonal and block diagonal matrices: dune/istl/btdmatrix.hh, dune/istl/bdmatrix.hh

Blocks form an arbitrary ring `R`, vector blocks an `R`-module. Simplifications: `int`/`unsigned` loop counters do not
overflow; a block's `solve(x,b)` is multiplication with its inverse.
-/

namespace Istl
namespace Btd
open Bcrs

variable {B : Type}

/-- `setrowsize(i, 3 - (i==0) - (i==(size-1)))` for all rows. dune/istl/btdmatrix.hh:56-57, 84-85. -/
def sizes (n : Nat) : List SizeOp :=
  (List.range n).map fun i => .set i (3 - (if i = 0 then 1 else 0) - (if i = n - 1 then 1 else 0))

/-- The `addindex` calls. dune/istl/btdmatrix.hh:62-68, 90-96. -/
def calls (n : Nat) : List (Nat × Nat) :=
  (List.range n).flatMap fun i =>
    (if 0 < i then [(i, i - 1)] else []) ++ [(i, i)] ++ (if i < n - 1 then [(i, i + 1)] else [])

/-- `BTDMatrix(size)`; an exception of `addindex` would end it. dune/istl/btdmatrix.hh:51-71. -/
def btdCtor (n : Nat) : BC B Unit := do
  ctor n n 0 .random
  runSizes (sizes n)
  endrowsizes
  runAddsStrict (calls n)
  endindices

/-- `BTDMatrix::setSize(size)`. dune/istl/btdmatrix.hh:74-99. -/
def btdSetSize (n : Nat) : BC B Unit := do
  setSize n n (if n = 0 then 0 else n + 2 * (n - 1))
  runSizes (sizes n)
  endrowsizes
  runAddsStrict (calls n)
  endindices

/-- `BDMatrix::setSize(size)`. dune/istl/bdmatrix.hh:81-96. -/
def bdSetSize (n : Nat) : BC B Unit := do
  setSize n n n
  runSizes ((List.range n).map fun i => .set i 1)
  endrowsizes
  runAddsStrict ((List.range n).map fun i => (i, i))
  endindices

/-- `BDMatrix(size)`. dune/istl/bdmatrix.hh:56-69. -/
def bdCtor (n : Nat) : BC B Unit := do
  ctor n n 0 .random
  runSizes ((List.range n).map fun i => .set i 1)
  endrowsizes
  runAddsStrict ((List.range n).map fun i => (i, i))
  endindices

variable {R V : Type} [Ring R] [AddCommGroup V] [Module R V]

/-- `Impl::asMatrix(a).invert()`, throwing `FMatrixError` for a singular block. -/
def invert (I : BlockInv R) (a : R) : Res R :=
  match I.inv a with
  | some b => .ok b
  | none => .throw .fmatrixError

/-- Store to `c[i]` of a `std::vector` of length `len`; undefined outside. dune/istl/btdmatrix.hh:132. -/
def put (len : Nat) (c : Nat → R) (i : Nat) (v : R) : Res (Nat → R) :=
  if i < len then .ok (upd c i v) else .ub

/-- The loop `c[i] = (*this)[i][i+1]`, `k` passes. dune/istl/btdmatrix.hh:133-134. -/
def thomasCopy (A : SpMat R) (k : Nat) : Res (Nat → R) :=
  forRangeM k (fun i c => do
    let u ← (A.row i).get (i + 1)
    put (A.n - 1) c i u) (fun _ => 0)

/-- `if (i<c.size()) c[i].leftmultiply(id)`. dune/istl/btdmatrix.hh:160-162. -/
def thomasScale (len : Nat) (c : Nat → R) (i : Nat) (id : R) : Res (Nat → R) :=
  if i < len then put len c i (id * c i) else .ok c

/-- One pass of the elimination loop, `i = k + 1`; the state is `(c, d)`. dune/istl/btdmatrix.hh:149-171. -/
def thomasFwd (I : BlockInv R) (A : SpMat R) (k : Nat) (s : (Nat → R) × (Nat → V)) : Res ((Nat → R) × (Nat → V)) := do
  let aL ← (A.row (k + 1)).get k
  let b ← (A.row (k + 1)).get (k + 1)
  let id ← invert I (b - aL * s.1 k)
  let c ← thomasScale (A.n - 1) s.1 (k + 1) id
  .ok (c, upd s.2 (k + 1) (id • (s.2 (k + 1) - aL • s.2 k)))

/-- `BTDMatrix::solve(x,rhs)`: the Thomas algorithm. For `N() == 0` the vector `c(N()-1)` gets the length `2^64-1`, whose constructor
throws `std::length_error`. dune/istl/btdmatrix.hh:119-182. -/
def thomas (I : BlockInv R) (A : SpMat R) (rhs x : Nat → V) : Res (Nat → V) :=
  if A.n = 1 then do
    let a ← (A.row 0).get 0
    let b ← invert I a
    .ok (upd x 0 (b • rhs 0))
  else if A.n = 0 then .throw .lengthError
  else do
    let c ← thomasCopy A (A.n - 1)
    let a ← (A.row 0).get 0
    let a' ← invert I a
    let s ← forRangeM (A.n - 1) (thomasFwd I A) (upd c 0 (a' * c 0), upd rhs 0 (a' • rhs 0))
    .ok (forDown (A.n - 1) (fun i x => upd x i (s.2 i - s.1 i • x (i + 1))) (upd x (A.n - 1) (s.2 (A.n - 1))))

/-- `BDMatrix::solve(x,rhs)`. dune/istl/bdmatrix.hh:116-123. -/
def bdSolve (I : BlockInv R) (A : SpMat R) (rhs x : Nat → V) : Res (Nat → V) :=
  forRangeM A.n (fun i x => do
    let a ← (A.row i).get i
    let b ← invert I a
    .ok (upd x i (b • rhs i))) x

/-- One pass of `BDMatrix::invert()`: invert the block in place. dune/istl/bdmatrix.hh:128-129. -/
def bdInvertRow (I : BlockInv R) (i : Nat) (A : SpMat R) : Res (SpMat R) := do
  let a ← (A.row i).get i
  let b ← invert I a
  let r ← (A.row i).modify i (fun _ => b)
  .ok { A with row := fun k => if k = i then r else A.row k }

/-- `BDMatrix::invert()`. dune/istl/bdmatrix.hh:126-130. -/
def bdInvert (I : BlockInv R) (A : SpMat R) : Res (SpMat R) := forRangeM A.n (bdInvertRow I) A

end Btd
end Istl

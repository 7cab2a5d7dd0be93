import Verif.Model.Row
import Mathlib.Algebra.Group.Hom.Instances
import Mathlib.Algebra.Module.Defs
import Mathlib.Data.List.Range

/-!
# Built sparse matrices and their kernels

A *built* `BCRSMatrix` as seen through its public iterators: `N()`, `M()` and for each row the entries
`(index(), value)` from `begin()` to `end()`.
-/

namespace Istl

/-- A built `BCRSMatrix<B>`: dune/istl/bcrsmatrix.hh:485ff (public view of a matrix with `ready==built`).
Rows `i >= n` do not exist; the function is only evaluated below `n`. -/
structure SpMat (B : Type) where
  n : Nat
  m : Nat
  row : Nat → Row B

/-- Loop `for (i=0; i<n; ++i)` threading a state: the row loops of dune/istl/bcrsmatrix.hh:1652 etc. -/
def forRange {S : Type} (n : Nat) (f : Nat → S → S) (s : S) : S := (List.range n).foldl (fun s i => f i s) s

/-- Loop from `n-1` down to `0`: `for (i=A.beforeEnd(); i!=A.beforeBegin(); --i)`, e.g. dune/istl/ilu.hh:118. -/
def forDown {S : Type} (n : Nat) (f : Nat → S → S) (s : S) : S := (List.range n).reverse.foldl (fun s i => f i s) s

/-- Vector write `y[i] = v`. Vectors are total functions on indices; sizes are the caller's contract
(checked only with DUNE_ISTL_WITH_CHECKING, dune/istl/bcrsmatrix.hh:1643-1650). -/
def upd {Y : Type} (y : Nat → Y) (i : Nat) (v : Y) : Nat → Y := fun k => if k = i then v else y k

/-- How a matrix block acts on vector blocks (contract of `FieldMatrix`, of a scalar via `Impl::asMatrix`, or of a
nested `BCRSMatrix`): `mul b x = b x`, `tmul b y = b^T y`, `hmul b y = b^H y`, all additive. -/
structure BlockAct (B X Y : Type) [AddCommGroup B] [AddCommGroup X] [AddCommGroup Y] where
  mul : B →+ X →+ Y
  tmul : B →+ Y →+ X
  hmul : B →+ Y →+ X

namespace SpMat

section Kernels
variable {B X Y : Type} [AddCommGroup B] [AddCommGroup X] [AddCommGroup Y]

/-- `mv(x,y)`: y = A x. dune/istl/bcrsmatrix.hh:1641-1663. -/
def mv (β : BlockAct B X Y) (A : SpMat B) (x : Nat → X) (y : Nat → Y) : Nat → Y :=
  forRange A.n (fun i y =>
    (A.row i).foldl (fun y e => upd y i (y i + β.mul e.2 (x e.1))) (upd y i 0)) y

/-- `umv(x,y)`: y += A x. dune/istl/bcrsmatrix.hh:1667-1686. -/
def umv (β : BlockAct B X Y) (A : SpMat B) (x : Nat → X) (y : Nat → Y) : Nat → Y :=
  forRange A.n (fun i y =>
    (A.row i).foldl (fun y e => upd y i (y i + β.mul e.2 (x e.1))) y) y

/-- `mmv(x,y)`: y -= A x. dune/istl/bcrsmatrix.hh:1690-1709. -/
def mmv (β : BlockAct B X Y) (A : SpMat B) (x : Nat → X) (y : Nat → Y) : Nat → Y :=
  forRange A.n (fun i y =>
    (A.row i).foldl (fun y e => upd y i (y i - β.mul e.2 (x e.1))) y) y

/-- `usmv(alpha,x,y)`: y += alpha A x. dune/istl/bcrsmatrix.hh:1713-1732. -/
def usmv {K : Type} [Ring K] [Module K Y] (β : BlockAct B X Y) (alpha : K) (A : SpMat B) (x : Nat → X) (y : Nat → Y) :
    Nat → Y :=
  forRange A.n (fun i y =>
    (A.row i).foldl (fun y e => upd y i (y i + alpha • β.mul e.2 (x e.1))) y) y

/-- `umtv(x,y)`: y += A^T x. dune/istl/bcrsmatrix.hh:1751-1770. -/
def umtv (β : BlockAct B X Y) (A : SpMat B) (x : Nat → Y) (y : Nat → X) : Nat → X :=
  forRange A.n (fun i y =>
    (A.row i).foldl (fun y e => upd y e.1 (y e.1 + β.tmul e.2 (x i))) y) y

/-- `mtv(x,y)`: y = A^T x. dune/istl/bcrsmatrix.hh:1736-1747; `y.N()` is `M()` by the size contract. -/
def mtv (β : BlockAct B X Y) (A : SpMat B) (x : Nat → Y) (y : Nat → X) : Nat → X :=
  umtv β A x (forRange A.m (fun i y => upd y i 0) y)

/-- `mmtv(x,y)`: y -= A^T x. dune/istl/bcrsmatrix.hh:1774-1791. -/
def mmtv (β : BlockAct B X Y) (A : SpMat B) (x : Nat → Y) (y : Nat → X) : Nat → X :=
  forRange A.n (fun i y =>
    (A.row i).foldl (fun y e => upd y e.1 (y e.1 - β.tmul e.2 (x i))) y) y

/-- `usmtv(alpha,x,y)`: y += alpha A^T x. dune/istl/bcrsmatrix.hh:1795-1814. -/
def usmtv {K : Type} [Ring K] [Module K X] (β : BlockAct B X Y) (alpha : K) (A : SpMat B) (x : Nat → Y) (y : Nat → X) :
    Nat → X :=
  forRange A.n (fun i y =>
    (A.row i).foldl (fun y e => upd y e.1 (y e.1 + alpha • β.tmul e.2 (x i))) y) y

/-- `umhv(x,y)`: y += A^H x. dune/istl/bcrsmatrix.hh:1818-1837. -/
def umhv (β : BlockAct B X Y) (A : SpMat B) (x : Nat → Y) (y : Nat → X) : Nat → X :=
  forRange A.n (fun i y =>
    (A.row i).foldl (fun y e => upd y e.1 (y e.1 + β.hmul e.2 (x i))) y) y

/-- `mmhv(x,y)`: y -= A^H x. dune/istl/bcrsmatrix.hh:1841-1860. -/
def mmhv (β : BlockAct B X Y) (A : SpMat B) (x : Nat → Y) (y : Nat → X) : Nat → X :=
  forRange A.n (fun i y =>
    (A.row i).foldl (fun y e => upd y e.1 (y e.1 - β.hmul e.2 (x i))) y) y

/-- `usmhv(alpha,x,y)`: y += alpha A^H x. dune/istl/bcrsmatrix.hh:1864-1883. -/
def usmhv {K : Type} [Ring K] [Module K X] (β : BlockAct B X Y) (alpha : K) (A : SpMat B) (x : Nat → Y) (y : Nat → X) :
    Nat → X :=
  forRange A.n (fun i y =>
    (A.row i).foldl (fun y e => upd y e.1 (y e.1 + alpha • β.hmul e.2 (x i))) y) y

end Kernels

/-- `operator+=(b)`, `operator-=(b)`, `axpy(alpha,b)`: row by row, `f old new` being `old+new`, `old-new`,
`old+alpha*new`. dune/istl/bcrsmatrix.hh:1574-1635. Simplification: on an exception only the fact that it was thrown is
kept (the C++ object is left partially updated). -/
def combine {B : Type} (f : B → B → B) (A b : SpMat B) : Res (SpMat B) := do
  let rows ← (List.range A.n).mapM (fun i => (A.row i).combine f (b.row i))
  .ok { A with row := fun i => rows.getD i [] }

/-- `A += b`. dune/istl/bcrsmatrix.hh:1574-1589. -/
def addAssign {B : Type} [Add B] (A b : SpMat B) : Res (SpMat B) := combine (fun x y => x + y) A b

/-- `A -= b`. dune/istl/bcrsmatrix.hh:1596-1611. -/
def subAssign {B : Type} [Sub B] (A b : SpMat B) : Res (SpMat B) := combine (fun x y => x - y) A b

/-- `A.axpy(alpha,b)`. dune/istl/bcrsmatrix.hh:1621-1635, dune/istl/bvector.hh:799-807. -/
def axpy {K B : Type} [Add B] [SMul K B] (alpha : K) (A b : SpMat B) : Res (SpMat B) :=
  combine (fun x y => x + alpha • y) A b

/-- `frobenius_norm2()`: `nrm2 b` is the block's own `frobenius_norm2()`. dune/istl/bcrsmatrix.hh:1889-1903. -/
def frobeniusNorm2 {B R : Type} [AddCommMonoid R] (nrm2 : B → R) (A : SpMat B) : R :=
  forRange A.n (fun i sum => (A.row i).foldl (fun sum e => sum + nrm2 e.2) sum) 0

/-- `infinity_norm()`: `nrm b` is the block's own `infinity_norm()`. dune/istl/bcrsmatrix.hh:1912-1929 (variant for
fields without NaN). -/
def infinityNorm {B R : Type} [AddCommMonoid R] [LinearOrder R] (nrm : B → R) (A : SpMat B) : R :=
  forRange A.n (fun i norm => max ((A.row i).foldl (fun sum e => sum + nrm e.2) 0) norm) 0

end SpMat
end Istl

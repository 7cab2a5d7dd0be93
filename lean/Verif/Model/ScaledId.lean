import Verif.Model.MultiType
import Mathlib.Algebra.Star.Basic
import Mathlib.Algebra.Field.Defs
import Mathlib.Algebra.Order.Group.Abs

/-!
# dune/istl/scaledidmatrix.hh

A `ScaledIdentityMatrix<K,n>` is the number `p_`; every operation below is what the code does with that number. Vectors are
`FieldVector<K,n>`: functions on `Fin n`; the loops are `MultiType.each`. The size checks of `DUNE_FMatrix_WITH_CHECKING` cannot
fail for vectors of static size.
-/

namespace Istl
namespace ScaledId
open MultiType (each)
variable {K : Type} {n : Nat}

section Arith
variable [Field K]

/-- `operator+=(ScaledIdentityMatrix)` and `operator+=(K)`. dune/istl/scaledidmatrix.hh:158-162, 172-176. -/
def add (p q : K) : K := p + q
/-- `operator-=`. dune/istl/scaledidmatrix.hh:165-169, 179-183. -/
def sub (p q : K) : K := p - q
/-- `operator*=(K)` and `operator*(matrix, scalar)`. dune/istl/scaledidmatrix.hh:185-189, 203-206. -/
def mulR (p k : K) : K := p * k
/-- `operator*(scalar, matrix)`. dune/istl/scaledidmatrix.hh:211-214. -/
def mulL (k p : K) : K := k * p
/-- `operator/=(K)`. dune/istl/scaledidmatrix.hh:192-196. -/
def div (p k : K) : K := p / k
/-- `operator==`. dune/istl/scaledidmatrix.hh:219-222. -/
def eq [DecidableEq K] (p q : K) : Bool := decide (p = q)
/-- `invert()`. dune/istl/scaledidmatrix.hh:398-401. -/
def invert (p : K) : K := 1 / p
/-- `determinant()`: `std::pow(p_, n)`. dune/istl/scaledidmatrix.hh:404-406. -/
def determinant (n : Nat) (p : K) : K := p ^ n
/-- `frobenius_norm2()`: `n*p_*p_`. dune/istl/scaledidmatrix.hh:368-371. -/
def frobeniusNorm2 (n : Nat) (p : K) : K := n * p * p
/-- `infinity_norm()`. dune/istl/scaledidmatrix.hh:374-377. -/
def infinityNorm [LinearOrder K] (p : K) : K := |p|
/-- `exists(i,j)`. dune/istl/scaledidmatrix.hh:425-432. -/
def exists' (i j : Fin n) : Bool := decide (i = j)
/-- Assigning to a dense matrix: everything to zero, then the diagonal. dune/istl/scaledidmatrix.hh:493-500. -/
def toDense (p : K) (_ : Fin n → Fin n → K) : Fin n → Fin n → K :=
  (List.finRange n).foldl (fun D i => Function.update D i (Function.update (D i) i p)) fun _ _ => 0

/-- `mv`. dune/istl/scaledidmatrix.hh:234-243. -/
def mv (p : K) (x y : Fin n → K) : Fin n → K := each (fun i _ => p * x i) y
/-- `mv(x, x)`: the same loop when both arguments are the same vector. dune/istl/scaledidmatrix.hh:234-243. -/
def mvSelf (p : K) (x : Fin n → K) : Fin n → K := each (fun _ a => p * a) x
/-- `mtv`: calls `mv`. dune/istl/scaledidmatrix.hh:246-249. -/
def mtv (p : K) (x y : Fin n → K) : Fin n → K := mv p x y
/-- `solve(x, b)`. dune/istl/scaledidmatrix.hh:390-394. -/
def solve (p : K) (x b : Fin n → K) : Fin n → K := each (fun i _ => b i / p) x
end Arith

/-- The nine products. dune/istl/scaledidmatrix.hh:253-262 (`umv`), 289-298 (`mmv`), 325-334 (`usmv`), 265-274 (`umtv`), 301-310 (`mmtv`),
337-346 (`usmtv`), 277-286 (`umhv`), 313-322 (`mmhv`), 349-358 (`usmhv`). -/
def ops [Field K] [StarRing K] (p : K) : MultiType.BlockOps K (Fin n → K) (Fin n → K) where
  umv := fun x y => each (fun i a => a + p * x i) y
  mmv := fun x y => each (fun i a => a - p * x i) y
  usmv := fun α x y => each (fun i a => a + α * p * x i) y
  umtv := fun x y => each (fun i a => a + p * x i) y
  mmtv := fun x y => each (fun i a => a - p * x i) y
  usmtv := fun α x y => each (fun i a => a + α * p * x i) y
  umhv := fun x y => each (fun i a => a + star p * x i) y
  mmhv := fun x y => each (fun i a => a - star p * x i) y
  usmhv := fun α x y => each (fun i a => a + α * star p * x i) y

end ScaledId
end Istl

import Mathlib.Algebra.BigOperators.Fin
import Mathlib.Algebra.Module.Pi
import Mathlib.Algebra.Module.LinearMap.Defs

/-!
# dune/istl/multitypeblockvector.hh and dune/istl/multitypeblockmatrix.hh

A `MultiTypeBlockVector` is a tuple whose entries have different types: a dependent function on `Fin n`. `Hybrid::forEach`
over `integralRange(N)` is a loop over `0, …, n-1` (here `List.finRange n`), and every assignment to an entry is an update of
the tuple at that position. The arithmetic of the entries themselves is theirs: for vectors that of a module, for matrices the
operations collected in `BlockOps`.
-/

namespace Istl
namespace MultiType

/-- The products a matrix block offers to the container: what the calls `A.umv(x,y)`, `A.mmv(x,y)`, … make of `y`.
dune/istl/multitypeblockmatrix.hh:222, 237, 252, 277, 292, 307, 322, 337, 352 (the calls). -/
structure BlockOps (R X Y : Type) where
  umv : X → Y → Y
  mmv : X → Y → Y
  usmv : R → X → Y → Y
  umtv : Y → X → X
  mmtv : Y → X → X
  usmtv : R → Y → X → X
  umhv : Y → X → X
  mmhv : Y → X → X
  usmhv : R → Y → X → X

variable {R : Type} {n m : Nat}

/-- `forEach(integralRange(N), [&](auto&& i){ t[i] = f(i, t[i]); })`: the pattern of every elementwise loop, e.g.
dune/istl/multitypeblockvector.hh:174-179. -/
def each {X : Fin n → Type} (f : ∀ i, X i → X i) (t : ∀ i, X i) : ∀ i, X i :=
  (List.finRange n).foldl (fun t i => Function.update t i (f i (t i))) t

/-- The double loop `forEach(i in y) forEach(j in x) op(i,j)` whose body changes `y[i]` only, e.g.
dune/istl/multitypeblockmatrix.hh:219-224. -/
def each2 {Y : Fin n → Type} (m : Nat) (f : ∀ i, Fin m → Y i → Y i) (y : ∀ i, Y i) : ∀ i, Y i :=
  (List.finRange n).foldl (fun y i =>
    (List.finRange m).foldl (fun y j => Function.update y i (f i j (y i))) y) y

/-! ## Vectors -/
section Vec
variable {X : Fin n → Type} [∀ i, AddCommGroup (X i)]

/-- `operator=(newval)` with a value every entry can be assigned from (the code assigns `0`).
dune/istl/multitypeblockvector.hh:164-169. -/
def vassign (c : ∀ i, X i) (x : ∀ i, X i) : ∀ i, X i := each (fun i _ => c i) x

/-- `operator+=`. dune/istl/multitypeblockvector.hh:174-179. -/
def vadd (x y : ∀ i, X i) : ∀ i, X i := each (fun i a => a + y i) x

/-- `operator-=`. dune/istl/multitypeblockvector.hh:184-189. -/
def vsub (x y : ∀ i, X i) : ∀ i, X i := each (fun i a => a - y i) x

/-- `operator*=(w)`. dune/istl/multitypeblockvector.hh:192-198. -/
def vscale [Ring R] [∀ i, Module R (X i)] (w : R) (x : ∀ i, X i) : ∀ i, X i := each (fun _ a => w • a) x

/-- `axpy(a, y)`. dune/istl/multitypeblockvector.hh:318-324. -/
def vaxpy [Ring R] [∀ i, Module R (X i)] (x : ∀ i, X i) (a : R) (y : ∀ i, X i) : ∀ i, X i :=
  each (fun i b => b + a • y i) x

/-- `dim()`: accumulates the entries' `dim()`. dune/istl/multitypeblockvector.hh:116-123. -/
def vdim (dim : ∀ i, X i → Nat) (x : ∀ i, X i) : Nat := (List.finRange n).foldl (fun a i => a + dim i (x i)) 0

/-- `operator*` and `dot` (the two differ in the entries' operation only), dune/istl/multitypeblockvector.hh:209-221. -/
def vdot [Ring R] (dot : ∀ i, X i → X i → R) (x y : ∀ i, X i) : R :=
  (List.finRange n).foldl (fun a i => a + dot i (x i) (y i)) 0

/-- `one_norm`, `one_norm_real`, `two_norm2`: sums of the entries' values. dune/istl/multitypeblockvector.hh:225-248. -/
def vsum [Ring R] (nrm : ∀ i, X i → R) (x : ∀ i, X i) : R := (List.finRange n).foldl (fun a i => a + nrm i (x i)) 0

/-- `infinity_norm`, `infinity_norm_real` for a field without NaN. dune/istl/multitypeblockvector.hh:256-282, 286-312. -/
def vmax [Ring R] [LinearOrder R] (nrm : ∀ i, X i → R) (x : ∀ i, X i) : R :=
  (List.finRange n).foldl (fun a i => max (nrm i (x i)) a) 0

end Vec

/-! ## Matrices -/
section Mat
variable {X : Fin m → Type} {Y : Fin n → Type}

/-- `umv`. dune/istl/multitypeblockmatrix.hh:214-225. -/
def umv (A : ∀ i j, BlockOps R (X j) (Y i)) (x : ∀ j, X j) (y : ∀ i, Y i) : ∀ i, Y i :=
  each2 m (fun i j yi => (A i j).umv (x j) yi) y

/-- `mmv`. dune/istl/multitypeblockmatrix.hh:229-240. -/
def mmv (A : ∀ i j, BlockOps R (X j) (Y i)) (x : ∀ j, X j) (y : ∀ i, Y i) : ∀ i, Y i :=
  each2 m (fun i j yi => (A i j).mmv (x j) yi) y

/-- `usmv`. dune/istl/multitypeblockmatrix.hh:244-255. -/
def usmv (A : ∀ i j, BlockOps R (X j) (Y i)) (α : R) (x : ∀ j, X j) (y : ∀ i, Y i) : ∀ i, Y i :=
  each2 m (fun i j yi => (A i j).usmv α (x j) yi) y

/-- `mv`: `y = 0; umv(x,y)`. dune/istl/multitypeblockmatrix.hh:204-210. -/
def mv [∀ i, AddCommGroup (Y i)] (A : ∀ i j, BlockOps R (X j) (Y i)) (x : ∀ j, X j) (y : ∀ i, Y i) : ∀ i, Y i :=
  umv A x (vassign (fun _ => 0) y)

/-- `umtv`: the loop over `y` is outside, the blocks are `(*this)[j][i]`. dune/istl/multitypeblockmatrix.hh:269-280. -/
def umtv (A : ∀ i j, BlockOps R (X j) (Y i)) (x : ∀ i, Y i) (y : ∀ j, X j) : ∀ j, X j :=
  each2 n (fun i j yi => (A j i).umtv (x j) yi) y

/-- `mmtv`. dune/istl/multitypeblockmatrix.hh:284-295. -/
def mmtv (A : ∀ i j, BlockOps R (X j) (Y i)) (x : ∀ i, Y i) (y : ∀ j, X j) : ∀ j, X j :=
  each2 n (fun i j yi => (A j i).mmtv (x j) yi) y

/-- `usmtv`. dune/istl/multitypeblockmatrix.hh:299-310. -/
def usmtv (A : ∀ i j, BlockOps R (X j) (Y i)) (α : R) (x : ∀ i, Y i) (y : ∀ j, X j) : ∀ j, X j :=
  each2 n (fun i j yi => (A j i).usmtv α (x j) yi) y

/-- `mtv`: `y = 0; umtv(x,y)`. dune/istl/multitypeblockmatrix.hh:259-265. -/
def mtv [∀ j, AddCommGroup (X j)] (A : ∀ i j, BlockOps R (X j) (Y i)) (x : ∀ i, Y i) (y : ∀ j, X j) : ∀ j, X j :=
  umtv A x (vassign (fun _ => 0) y)

/-- `umhv`. dune/istl/multitypeblockmatrix.hh:314-325. -/
def umhv (A : ∀ i j, BlockOps R (X j) (Y i)) (x : ∀ i, Y i) (y : ∀ j, X j) : ∀ j, X j :=
  each2 n (fun i j yi => (A j i).umhv (x j) yi) y

/-- `mmhv`. dune/istl/multitypeblockmatrix.hh:329-340. -/
def mmhv (A : ∀ i j, BlockOps R (X j) (Y i)) (x : ∀ i, Y i) (y : ∀ j, X j) : ∀ j, X j :=
  each2 n (fun i j yi => (A j i).mmhv (x j) yi) y

/-- `usmhv`. dune/istl/multitypeblockmatrix.hh:344-355. -/
def usmhv (A : ∀ i j, BlockOps R (X j) (Y i)) (α : R) (x : ∀ i, Y i) (y : ∀ j, X j) : ∀ j, X j :=
  each2 n (fun i j yi => (A j i).usmhv α (x j) yi) y

/-- A `MultiTypeBlockMatrix` seen as a block of an enclosing one: the container offers the interface it expects of its
entries. dune/istl/multitypeblockmatrix.hh:44, 204-355. -/
def ops (A : ∀ i j, BlockOps R (X j) (Y i)) : BlockOps R (∀ j, X j) (∀ i, Y i) where
  umv := umv A
  mmv := mmv A
  usmv := usmv A
  umtv := umtv A
  mmtv := mmtv A
  usmtv := usmtv A
  umhv := umhv A
  mmhv := mmhv A
  usmhv := usmhv A

end Mat

/-! ### Entrywise arithmetic and norms; `B i j` is the type of the block in row `i` and column `j` -/
section Arith
variable {B : Fin n → Fin m → Type}

/-- `operator+=`: row by row, each row a `MultiTypeBlockVector`. dune/istl/multitypeblockmatrix.hh:177-185. -/
def madd [∀ i j, AddCommGroup (B i j)] (A C : ∀ i j, B i j) : ∀ i j, B i j := each (fun i r => vadd r (C i)) A

/-- `operator-=`. dune/istl/multitypeblockmatrix.hh:192-200. -/
def msub [∀ i j, AddCommGroup (B i j)] (A C : ∀ i j, B i j) : ∀ i j, B i j := each (fun i r => vsub r (C i)) A

/-- `operator*=(k)`. dune/istl/multitypeblockmatrix.hh:150-158. -/
def mscale [Ring R] [∀ i j, AddCommGroup (B i j)] [∀ i j, Module R (B i j)] (k : R) (A : ∀ i j, B i j) : ∀ i j, B i j :=
  each (fun _ r => vscale k r) A

/-- `frobenius_norm2`. dune/istl/multitypeblockmatrix.hh:361-374. -/
def frobenius2 [Ring R] (nrm : ∀ i j, B i j → R) (A : ∀ i j, B i j) : R :=
  (List.finRange n).foldl (fun s i => (List.finRange m).foldl (fun s j => s + nrm i j (A i j)) s) 0

/-- `infinity_norm`, `infinity_norm_real`. dune/istl/multitypeblockmatrix.hh:383-399, 402-418. -/
def infinityNorm [Ring R] [LinearOrder R] (nrm : ∀ i j, B i j → R) (A : ∀ i j, B i j) : R :=
  (List.finRange n).foldl (fun s i => max ((List.finRange m).foldl (fun t j => t + nrm i j (A i j)) 0) s) 0

end Arith

/-! ## Relaxation steps

`MultiTypeBlockMatrix_Solver<I,crow,remain_row>`: the rows are visited by template recursion, `0 … N-1` or (for `bsorb`)
`N-1 … 0`. `inner i v rhs` is `algmeta_itsteps<I-1,…>::…(A_ii, v, rhs, w)` applied to the diagonal block: the new content of
`v`. The matrix is square as a tuple of blocks, and `x_i`, `b_i` may have different types. -/
section Steps
variable {X Y : Fin n → Type} [∀ i, AddCommGroup (X i)]

/-- `calc_rhs`: `rhs -= A[crow][j] x[j]` for all columns `j`, the diagonal one included.
dune/istl/multitypeblockmatrix.hh:468-482. -/
def calcRhs (A : ∀ i j, BlockOps R (X j) (Y i)) (x : ∀ j, X j) (i : Fin n) (rhs : Y i) : Y i :=
  (List.finRange n).foldl (fun r j => (A i j).mmv (x j) r) rhs

/-- The recursion over the rows of `dbgs` (five arguments). dune/istl/multitypeblockmatrix.hh:507-521. -/
def dbgsRows (A : ∀ i j, BlockOps R (X j) (Y i)) (inner : ∀ i, X i → Y i → X i) (b : ∀ i, Y i) (x : ∀ i, X i) : ∀ i, X i :=
  (List.finRange n).foldl (fun x i => Function.update x i (inner i (x i) (calcRhs A x i (b i)))) x

/-- `dbgs`: `xold = x`, the rows, `x *= w`, `x.axpy(1-w, xold)`. dune/istl/multitypeblockmatrix.hh:499-506. -/
def dbgs [Ring R] [∀ i, Module R (X i)] (A : ∀ i j, BlockOps R (X j) (Y i)) (inner : ∀ i, X i → Y i → X i) (w : R)
    (b : ∀ i, Y i) (x : ∀ i, X i) : ∀ i, X i :=
  vaxpy (vscale w (dbgsRows A inner b x)) (1 - w) x

/-- One row of `bsorf`/`bsorb`; the state is `(x, v)`. dune/istl/multitypeblockmatrix.hh:535-549, 562-576. -/
def sorRow [Ring R] [∀ i, Module R (X i)] (A : ∀ i j, BlockOps R (X j) (Y i)) (inner : ∀ i, X i → Y i → X i) (w : R)
    (b : ∀ i, Y i) (s : (∀ i, X i) × (∀ i, X i)) (i : Fin n) : (∀ i, X i) × (∀ i, X i) :=
  let v := Function.update s.2 i (inner i (s.2 i) (calcRhs A s.1 i (b i)))
  (Function.update s.1 i (s.1 i + w • v i), v)

/-- `bsorf`: `v = x`, then the rows upwards. dune/istl/multitypeblockmatrix.hh:528-534. -/
def bsorf [Ring R] [∀ i, Module R (X i)] (A : ∀ i j, BlockOps R (X j) (Y i)) (inner : ∀ i, X i → Y i → X i) (w : R)
    (b : ∀ i, Y i) (x : ∀ i, X i) : ∀ i, X i :=
  ((List.finRange n).foldl (sorRow A inner w b) (x, x)).1

/-- `bsorb`: `v = x`, then the rows downwards. dune/istl/multitypeblockmatrix.hh:555-561, dune/istl/gsetc.hh:592-602. -/
def bsorb [Ring R] [∀ i, Module R (X i)] (A : ∀ i j, BlockOps R (X j) (Y i)) (inner : ∀ i, X i → Y i → X i) (w : R)
    (b : ∀ i, Y i) (x : ∀ i, X i) : ∀ i, X i :=
  ((List.finRange n).reverse.foldl (sorRow A inner w b) (x, x)).1

/-- `dbjac`: `v = 0`, the rows with the unchanged `x`, `x.axpy(w, v)`. dune/istl/multitypeblockmatrix.hh:583-604. -/
def dbjac [Ring R] [∀ i, Module R (X i)] (A : ∀ i j, BlockOps R (X j) (Y i)) (inner : ∀ i, X i → Y i → X i) (w : R)
    (b : ∀ i, Y i) (x : ∀ i, X i) : ∀ i, X i :=
  vaxpy x w ((List.finRange n).foldl (fun v i => Function.update v i (inner i (v i) (calcRhs A x i (b i))))
    (vassign (fun _ => 0) x))

end Steps
end MultiType
end Istl

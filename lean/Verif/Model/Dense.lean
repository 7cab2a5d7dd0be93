import Verif.Model.Gsetc

/-!
# The dense `Matrix` container (dune/istl/matrix.hh)

`DenseMatrixBase` holds one flat array `p` of `n = rows_*columns_` blocks; row `i` is the window starting at
`p + i*columns_`. Reads and writes outside of the flat array are undefined behaviour. `Matrix` adds its own `cols_`.
Vectors (`BlockVector`) are lists; access outside is undefined behaviour as well.
-/

namespace Istl

/-- `Matrix<B>` with its `DenseMatrixBase<B>` engine: `p`, `rows_`, `columns_` (dune/istl/matrix.hh:546-547,
dune/istl/bvector.hh:90ff) and `cols_` (matrix.hh:1084). -/
structure DMat (B : Type) where
  p : List B
  rows : Nat
  columns : Nat
  cols : Nat
  deriving DecidableEq

namespace DMat
variable {B : Type}

/-- `A[i][j]` read: `window_type(p + i*columns_, columns_)[j]`. dune/istl/matrix.hh:241-256, 669-689. -/
def get (A : DMat B) (i j : Nat) : Res B := rd A.p (i * A.columns + j)

/-- `A[i][j] = b`. dune/istl/matrix.hh:241-247, 669-677. -/
def set (A : DMat B) (i j : Nat) (b : B) : Res (DMat B) := do
  let q ← wr A.p (i * A.columns + j) b
  .ok { A with p := q }

/-- The blocks of a freshly allocated array: `new (p) B[n]` leaves whatever the default constructor leaves, here an
arbitrary function. dune/istl/matrix.hh:102-103. -/
def fresh (init : Nat → B) (n : Nat) : List B := (List.range n).map init

/-- `Matrix(rows,cols)` = `DenseMatrixBase(rows,cols)`. dune/istl/matrix.hh:95-113, 597-598. -/
def make (init : Nat → B) (rows cols : Nat) : DMat B := ⟨fresh init (rows * cols), rows, cols, cols⟩

/-- `setSize(rows,cols)` = `DenseMatrixBase::resize`: the old array is destroyed and a new one allocated.
dune/istl/matrix.hh:153-179, 604-607. -/
def setSize (init : Nat → B) (_ : DMat B) (rows cols : Nat) : DMat B := ⟨fresh init (rows * cols), rows, cols, cols⟩

/-- One pass of the copy loop `p[i]=a.p[i]`. dune/istl/matrix.hh:128-129, 218-219. -/
def copyStep (a : List B) (i : Nat) (q : List B) : Res (List B) := do
  let v ← rd a i
  wr q i v

/-- Copy constructor: allocate `a.n` blocks and copy them. dune/istl/matrix.hh:116-139. -/
def copy (init : Nat → B) (a : DMat B) : Res (DMat B) := do
  let q ← forRangeM a.p.length (copyStep a.p) (fresh init a.p.length)
  .ok ⟨q, a.rows, a.columns, a.cols⟩

/-- Assignment `A = a` between different objects: `columns_` always, the array and `rows_` only if the array length or
the number of rows differ, then the blocks, then `cols_`. dune/istl/matrix.hh:182-223. -/
def assign (init : Nat → B) (A a : DMat B) : Res (DMat B) := do
  let A1 : DMat B := { A with columns := a.columns }
  let A2 : DMat B :=
    if A1.p.length ≠ a.p.length ∨ A1.rows ≠ a.rows then { A1 with p := fresh init a.p.length, rows := a.rows } else A1
  let q ← forRangeM A2.p.length (copyStep a.p) A2.p
  .ok { A2 with p := q, cols := a.cols }

/-- `A = k` (block assignment from a scalar, `sc k` is the block `k` is turned into). dune/istl/matrix.hh:229-233, 662-666,
dune/istl/bvector.hh:115-120. -/
def fill {K : Type} (sc : K → B) (k : K) (A : DMat B) : Res (DMat B) := do
  let q ← forRangeM A.p.length (fun i q => wr q i (sc k)) A.p
  .ok { A with p := q }

/-- One pass of `(*this)[i] = f (*this)[i]`. dune/istl/bvector.hh:146-155. -/
def mapStep (f : B → B) (i : Nat) (q : List B) : Res (List B) := do
  let v ← rd q i
  wr q i (f v)

/-- `A *= k`. dune/istl/matrix.hh:701-704, dune/istl/bvector.hh:144-149. -/
def mulScalar {K : Type} [SMul K B] (k : K) (A : DMat B) : Res (DMat B) := do
  let q ← forRangeM A.p.length (mapStep (fun b => k • b)) A.p
  .ok { A with p := q }

/-- `A /= k`. dune/istl/matrix.hh:707-710, dune/istl/bvector.hh:151-156. Division by a number is multiplication by its
inverse (rounding is not modelled). -/
def divScalar {K : Type} [Inv K] [SMul K B] (k : K) (A : DMat B) : Res (DMat B) := do
  let q ← forRangeM A.p.length (mapStep (fun b => k⁻¹ • b)) A.p
  .ok { A with p := q }

/-- One pass of `(*this)[i] op= y[i]`. dune/istl/bvector.hh:125-143. -/
def zipStep (f : B → B → B) (b : List B) (i : Nat) (q : List B) : Res (List B) := do
  let u ← rd q i
  let v ← rd b i
  wr q i (f u v)

/-- `A += b`. dune/istl/matrix.hh:717-724, dune/istl/bvector.hh:123-131. -/
def addAssign [Add B] (A b : DMat B) : Res (DMat B) := do
  let q ← forRangeM A.p.length (zipStep (fun u v => u + v) b.p) A.p
  .ok { A with p := q }

/-- `A -= b`. dune/istl/matrix.hh:731-738, dune/istl/bvector.hh:134-142. -/
def subAssign [Sub B] (A b : DMat B) : Res (DMat B) := do
  let q ← forRangeM A.p.length (zipStep (fun u v => u - v) b.p) A.p
  .ok { A with p := q }

/-- Body of `transpose()`: `out[j][i] = (*this)[i][j]`. dune/istl/matrix.hh:745. -/
def transposeStep (A : DMat B) (i j : Nat) (out : DMat B) : Res (DMat B) := do
  let v ← A.get i j
  out.set j i v

/-- `transpose()`. dune/istl/matrix.hh:741-748. -/
def transpose (init : Nat → B) (A : DMat B) : Res (DMat B) :=
  forRangeM A.rows (fun i out => forRangeM A.cols (fun j out => transposeStep A i j out) out) (make init A.cols A.rows)

/-- Body of the matrix product: `out[i][j] += m1[i][k]*m2[k][j]`. dune/istl/matrix.hh:758. -/
def mulStep [Add B] [Mul B] (m1 m2 : DMat B) (i j k : Nat) (out : DMat B) : Res (DMat B) := do
  let u ← m1.get i k
  let v ← m2.get k j
  let o ← out.get i j
  out.set i j (o + u * v)

/-- `operator*(m1,m2)`. dune/istl/matrix.hh:751-762. -/
def mul [Add B] [Mul B] [Zero B] (init : Nat → B) (m1 m2 : DMat B) : Res (DMat B) := do
  let out ← fill (fun z : B => z) 0 (make init m1.rows m2.cols)
  forRangeM out.rows (fun i out => forRangeM out.cols (fun j out => forRangeM m1.cols (fun k out =>
    mulStep m1 m2 i j k out) out) out) out

section Kernels
variable {X Y : Type} [AddCommGroup B] [AddCommGroup X] [AddCommGroup Y]

/-- Body `y[i] op= A[i][j] * x[j]`: the block is read, the two vector blocks, the result is stored.
dune/istl/matrix.hh:794-796, 825-827, 842-844, 859-861. -/
def gatherStep (A : DMat B) (f : B → X → Y → Y) (x : List X) (i j : Nat) (y : List Y) : Res (List Y) := do
  let xj ← rd x j
  let yi ← rd y i
  let a ← A.get i j
  wr y i (f a xj yi)

/-- Body `y[j] op= A[i][j]^T * x[i]`. dune/istl/matrix.hh:876-878, 893-895, 910-912, 927-929, 944-946, 961-963. -/
def scatterStep (A : DMat B) (f : B → Y → X → X) (x : List Y) (i j : Nat) (y : List X) : Res (List X) := do
  let xi ← rd x i
  let yj ← rd y j
  let a ← A.get i j
  wr y j (f a xi yj)

/-- The two row/column loops of the kernels: `for i<data_.N()`, `for j<cols_`. dune/istl/matrix.hh:822-823. -/
def loops {S : Type} (A : DMat B) (body : Nat → Nat → S → Res S) (s : S) : Res S :=
  forRangeM A.rows (fun i s => forRangeM A.cols (fun j s => body i j s) s) s

/-- `operator*(m,vec)`. dune/istl/matrix.hh:765-780 (`y0` is `Y out(m.N()); out = 0`). The inner loop runs over
`vec.size()`. -/
def mulVec (β : BlockAct B X Y) (A : DMat B) (vec : List X) : Res (List Y) :=
  forRangeM A.rows (fun i y => forRangeM vec.length (fun j y =>
    gatherStep A (fun a xj yi => yi + β.mul a xj) vec i j y) y) (List.replicate A.rows 0)

/-- One row of `mv`: `y[i]=0` and the inner loop. dune/istl/matrix.hh:790-798. -/
def mvRow (β : BlockAct B X Y) (A : DMat B) (x : List X) (i : Nat) (y : List Y) : Res (List Y) := do
  let y ← wr y i 0
  forRangeM A.cols (fun j y => gatherStep A (fun a xj yi => yi + β.mul a xj) x i j y) y

/-- `mv(x,y)`. dune/istl/matrix.hh:783-799. -/
def mv (β : BlockAct B X Y) (A : DMat B) (x : List X) (y : List Y) : Res (List Y) :=
  forRangeM A.rows (fun i y => mvRow β A x i y) y

/-- `umv(x,y)`. dune/istl/matrix.hh:815-829. -/
def umv (β : BlockAct B X Y) (A : DMat B) (x : List X) (y : List Y) : Res (List Y) :=
  A.loops (gatherStep A (fun a xj yi => yi + β.mul a xj) x) y

/-- `mmv(x,y)`. dune/istl/matrix.hh:832-846. -/
def mmv (β : BlockAct B X Y) (A : DMat B) (x : List X) (y : List Y) : Res (List Y) :=
  A.loops (gatherStep A (fun a xj yi => yi - β.mul a xj) x) y

/-- `usmv(alpha,x,y)`. dune/istl/matrix.hh:849-863. -/
def usmv {K : Type} [SMul K Y] (β : BlockAct B X Y) (alpha : K) (A : DMat B) (x : List X) (y : List Y) :
    Res (List Y) :=
  A.loops (gatherStep A (fun a xj yi => yi + alpha • β.mul a xj) x) y

/-- `umtv(x,y)`. dune/istl/matrix.hh:866-880. -/
def umtv (β : BlockAct B X Y) (A : DMat B) (x : List Y) (y : List X) : Res (List X) :=
  A.loops (scatterStep A (fun a xi yj => yj + β.tmul a xi) x) y

/-- `mtv(x,y)`: `y[i]=0` for all `i<y.N()`, then `umtv`. dune/istl/matrix.hh:802-812. -/
def mtv (β : BlockAct B X Y) (A : DMat B) (x : List Y) (y : List X) : Res (List X) := do
  let y ← forRangeM y.length (fun i y => wr y i 0) y
  A.umtv β x y

/-- `mmtv(x,y)`. dune/istl/matrix.hh:883-897. -/
def mmtv (β : BlockAct B X Y) (A : DMat B) (x : List Y) (y : List X) : Res (List X) :=
  A.loops (scatterStep A (fun a xi yj => yj - β.tmul a xi) x) y

/-- `usmtv(alpha,x,y)`. dune/istl/matrix.hh:900-914. -/
def usmtv {K : Type} [SMul K X] (β : BlockAct B X Y) (alpha : K) (A : DMat B) (x : List Y) (y : List X) :
    Res (List X) :=
  A.loops (scatterStep A (fun a xi yj => yj + alpha • β.tmul a xi) x) y

/-- `umhv(x,y)`. dune/istl/matrix.hh:917-931. -/
def umhv (β : BlockAct B X Y) (A : DMat B) (x : List Y) (y : List X) : Res (List X) :=
  A.loops (scatterStep A (fun a xi yj => yj + β.hmul a xi) x) y

/-- `mmhv(x,y)`. dune/istl/matrix.hh:934-948. -/
def mmhv (β : BlockAct B X Y) (A : DMat B) (x : List Y) (y : List X) : Res (List X) :=
  A.loops (scatterStep A (fun a xi yj => yj - β.hmul a xi) x) y

/-- `usmhv(alpha,x,y)`. dune/istl/matrix.hh:951-965. -/
def usmhv {K : Type} [SMul K X] (β : BlockAct B X Y) (alpha : K) (A : DMat B) (x : List Y) (y : List X) :
    Res (List X) :=
  A.loops (scatterStep A (fun a xi yj => yj + alpha • β.hmul a xi) x) y

end Kernels

/-- `frobenius_norm2()`. dune/istl/matrix.hh:976-983; `nrm2` is the block's own `frobenius_norm2()`. -/
def frobeniusNorm2 {R : Type} [Add R] [Zero R] (nrm2 : B → R) (A : DMat B) : Res R :=
  forRangeM A.rows (fun i s => forRangeM A.cols (fun j s => do let a ← A.get i j; .ok (s + nrm2 a)) s) 0

/-- Range-for over the rows: the iterator starts at pointer offset `0`, each `++` advances the window by `columns_`, and
the loop ends when the window pointer equals that of `end()`, offset `rows_*columns_`; the visited index is kept beside
the pointer. `fuel` bounds the recursion (running out of it is a non-terminating loop, here `ub`).
dune/istl/matrix.hh:300-325, 365-374, 441-466, 512-521. -/
def rowLoop {S : Type} (A : DMat B) (body : Nat → S → Res S) : Nat → Nat → Nat → S → Res S
  | 0, _, _, _ => .ub
  | fuel + 1, i, off, s =>
    if off = A.rows * A.columns then .ok s
    else do
      let s ← body off s
      rowLoop A body fuel (i + 1) (off + A.columns) s

/-- `infinity_norm()`: maximum over the visited rows of the sum of the block norms; the inner loop runs over the window
of `columns_` blocks. dune/istl/matrix.hh:1022-1040 (the factor `isNaN/isNaN` is 1 for numbers). -/
def infinityNorm {R : Type} [Add R] [Zero R] [LinearOrder R] (nrm : B → R) (A : DMat B) : Res R :=
  rowLoop A (fun off norm => do
    let sum ← forRangeM A.columns (fun j s => do let a ← rd A.p (off + j); .ok (s + nrm a)) 0
    .ok (max sum norm)) (A.rows + 1) 0 0 0

/-- The row indices a range-for visits, in order. dune/istl/matrix.hh:300-325, 512-521. -/
def visited (A : DMat B) : Nat → Nat → Nat → List Nat
  | 0, _, _ => []
  | fuel + 1, i, off => if off = A.rows * A.columns then [] else i :: visited A fuel (i + 1) (off + A.columns)

end DMat
end Istl

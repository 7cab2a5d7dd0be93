import Verif.Model.Dense

/-!
# The dense `Matrix` with `DUNE_ISTL_WITH_CHECKING` (dune/istl/matrix.hh)

Row and column numbers are unsigned: the tests `i<0` are left out. The exceptions of vectors that the kernels index are not reached.
-/

namespace Istl
namespace DMat
variable {B : Type}

/-- `A[i][j]` read with checks of row and column. dune/istl/matrix.hh:241-256, 668-688, dune/istl/basearray.hh:69-84. -/
def getChk (A : DMat B) (i j : Nat) : Res B :=
  if i ≥ A.rows then .throw .istlError
  else if j ≥ A.columns then .throw .istlError
  else A.get i j

/-- `A[i][j] = b` with checks. dune/istl/matrix.hh:241-256, 668-688, dune/istl/basearray.hh:69-84. -/
def setChk (A : DMat B) (i j : Nat) (b : B) : Res (DMat B) :=
  if i ≥ A.rows then .throw .istlError
  else if j ≥ A.columns then .throw .istlError
  else A.set i j b

/-- `A.exists(i,j)` with checks: the second test compares `i`. dune/istl/matrix.hh:1064-1071. -/
def existsChk (A : DMat B) (i _j : Nat) : Res Bool :=
  if i ≥ A.rows then .throw .istlError
  else if i ≥ A.cols then .throw .istlError
  else .ok true

/-- `A += b`. dune/istl/matrix.hh:716-724. -/
def addChk [Add B] (A b : DMat B) : Res (DMat B) :=
  if A.rows ≠ b.rows ∨ A.cols ≠ b.cols then .throw .rangeError else A.addAssign b
/-- `A -= b`. dune/istl/matrix.hh:730-738. -/
def subChk [Sub B] (A b : DMat B) : Res (DMat B) :=
  if A.rows ≠ b.rows ∨ A.cols ≠ b.cols then .throw .rangeError else A.subAssign b

/-- Body of the matrix product with checked accesses. dune/istl/matrix.hh:758. -/
def mulStepChk [Add B] [Mul B] (m1 m2 : DMat B) (i j k : Nat) (out : DMat B) : Res (DMat B) := do
  let u ← m1.getChk i k
  let v ← m2.getChk k j
  let o ← out.getChk i j
  out.setChk i j (o + u * v)

/-- `operator*(m1,m2)`: the sizes are not compared. dune/istl/matrix.hh:751-762. -/
def mulChk [Add B] [Mul B] [Zero B] (init : Nat → B) (m1 m2 : DMat B) : Res (DMat B) := do
  let out ← fill (fun z : B => z) 0 (make init m1.rows m2.cols)
  forRangeM out.rows (fun i out => forRangeM out.cols (fun j out => forRangeM m1.cols (fun k out =>
    mulStepChk m1 m2 i j k out) out) out) out

section Kernels
variable {K X Y : Type} [AddCommGroup B] [AddCommGroup X] [AddCommGroup Y]

/-- The kernels with `A`. -/
inductive Gather (K : Type) where
  | mv | umv | mmv | usmv (alpha : K)
/-- The kernels with the transposed or adjoint matrix. -/
inductive Scatter (K : Type) where
  | mtv | umtv | mmtv | usmtv (alpha : K) | umhv | mmhv | usmhv (alpha : K)

/-- `mv`, `umv`, `mmv`, `usmv` with checks. dune/istl/matrix.hh:783-863. -/
def Gather.chk [SMul K Y] (β : BlockAct B X Y) (A : DMat B) (x : List X) (y : List Y) : Gather K → Res (List Y)
  | .mv => if x.length ≠ A.cols then .throw .istlError else if y.length ≠ A.rows then .throw .istlError else A.mv β x y
  | .umv => if x.length ≠ A.cols then .throw .istlError else if y.length ≠ A.rows then .throw .istlError else A.umv β x y
  | .mmv => if x.length ≠ A.cols then .throw .istlError else if y.length ≠ A.rows then .throw .istlError else A.mmv β x y
  | .usmv a => if x.length ≠ A.cols then .throw .istlError else if y.length ≠ A.rows then .throw .istlError else A.usmv β a x y

/-- `mtv`, `umtv`, `mmtv`, `usmtv`, `umhv`, `mmhv`, `usmhv` with checks. dune/istl/matrix.hh:802-812, 866-965. -/
def Scatter.chk [SMul K X] (β : BlockAct B X Y) (A : DMat B) (x : List Y) (y : List X) : Scatter K → Res (List X)
  | .mtv => if x.length ≠ A.rows then .throw .istlError else if y.length ≠ A.cols then .throw .istlError else A.mtv β x y
  | .umtv => if x.length ≠ A.rows then .throw .istlError else if y.length ≠ A.cols then .throw .istlError else A.umtv β x y
  | .mmtv => if x.length ≠ A.rows then .throw .istlError else if y.length ≠ A.cols then .throw .istlError else A.mmtv β x y
  | .usmtv a => if x.length ≠ A.rows then .throw .istlError else if y.length ≠ A.cols then .throw .istlError else A.usmtv β a x y
  | .umhv => if x.length ≠ A.rows then .throw .istlError else if y.length ≠ A.cols then .throw .istlError else A.umhv β x y
  | .mmhv => if x.length ≠ A.rows then .throw .istlError else if y.length ≠ A.cols then .throw .istlError else A.mmhv β x y
  | .usmhv a => if x.length ≠ A.rows then .throw .istlError else if y.length ≠ A.cols then .throw .istlError else A.usmhv β a x y

/-- `operator*(m,vec)` with checks. dune/istl/matrix.hh:765-780. -/
def mulVecChk (β : BlockAct B X Y) (A : DMat B) (vec : List X) : Res (List Y) :=
  if A.cols ≠ vec.length then .throw .istlError else A.mulVec β vec

end Kernels
end DMat
end Istl

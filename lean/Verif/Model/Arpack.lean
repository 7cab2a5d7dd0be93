import Verif.Model.SpMat
import Verif.Model.Gsetc
import Mathlib.Analysis.SpecialFunctions.Sqrt

/-!
# The ARPACK++ wrapper

dune/istl/eigenvalue/arpackpp.hh. Raw arrays are lists, block vectors know their number of blocks; every access is checked. ARPACK++ itself
(`ARSymStdEig`) is a parameter: a function of the dimension, the number of eigenvalues, the product it calls back and the part of the
spectrum. Numbers are reals. Not modelled: output, `ncv`, `tol`, `maxit`, overflow of `int`, the number of iterations.
-/

namespace Istl
namespace Arpack

/-- A `FieldMatrix`: row, column. Only indices below the block sizes are looked at. -/
abbrev Blk := Nat → Nat → ℝ

/-- `BlockVector<FieldVector<Real,k> >`: number of blocks; block, component. dune/istl/eigenvalue/arpackpp.hh:131-141. -/
structure BVec where
  n : Nat
  at' : Nat → Nat → ℝ

/-- How a block of `p` rows and `q` columns acts. dune-common (contract of `FieldMatrix`). -/
noncomputable def act (p q : Nat) : BlockAct Blk (Nat → ℝ) (Nat → ℝ) where
  mul := AddMonoidHom.mk' (fun b => AddMonoidHom.mk' (fun x r => ∑ c ∈ Finset.range q, b r c * x c)
      (by intro x y; funext r; simp [mul_add, Finset.sum_add_distrib]))
    (by intro a b; ext x r; simp [add_mul, Finset.sum_add_distrib])
  tmul := AddMonoidHom.mk' (fun b => AddMonoidHom.mk' (fun y c => ∑ r ∈ Finset.range p, b r c * y r)
      (by intro x y; funext r; simp [mul_add, Finset.sum_add_distrib]))
    (by intro a b; ext x r; simp [add_mul, Finset.sum_add_distrib])
  hmul := AddMonoidHom.mk' (fun b => AddMonoidHom.mk' (fun y c => ∑ r ∈ Finset.range p, b r c * y r)
      (by intro x y; funext r; simp [mul_add, Finset.sum_add_distrib]))
    (by intro a b; ext x r; simp [add_mul, Finset.sum_add_distrib])

/-- `mv(x,y)` with the accesses it makes: `y[i]` for every row, `x[j]` for every entry. dune/istl/bcrsmatrix.hh:1641-1663. -/
noncomputable def mvC (p q : Nat) (A : SpMat Blk) (x y : BVec) : Res BVec :=
  if (List.range A.n).all (fun i => decide (i < y.n) && (A.row i).all (fun e => decide (e.1 < x.n))) then
    .ok { y with at' := A.mv (act p q) x.at' y.at' }
  else .ub

/-- `mtv(x,y)`: first `y` is set to zero, then for every entry `x[i]` and `y[j]` are accessed. dune/istl/bcrsmatrix.hh:1736-1770. -/
noncomputable def mtvC (p q : Nat) (A : SpMat Blk) (x y : BVec) : Res BVec :=
  if (List.range A.n).all (fun i => (A.row i).all (fun e => decide (i < x.n) && decide (e.1 < y.n))) then
    .ok { y with at' := A.umtv (act p q) x.at' (forRange y.n (fun i y => upd y i 0) y.at') }
  else .ub

/-- `arrayToDomainBlockVector`, `arrayToRangeBlockVector` for blocks of size `k`. dune/istl/eigenvalue/arpackpp.hh:173-191. -/
noncomputable def fromArray (k : Nat) (v : List ℝ) (b : BVec) : Res BVec :=
  forRangeM b.n (fun block b => forRangeM k (fun i b => do
    let z ← rd v (block * k + i)
    .ok { b with at' := upd b.at' block (upd (b.at' block) i z) }) b) b

/-- `domainBlockVectorToArray`, `rangeBlockVectorToArray`. dune/istl/eigenvalue/arpackpp.hh:150-168. -/
noncomputable def toArray (k : Nat) (b : BVec) (v : List ℝ) : Res (List ℝ) :=
  forRangeM b.n (fun block v => forRangeM k (fun i v => wr v (block * k + i) (b.at' block i)) v) v

/-- The members of `ArPackPlusPlus_BCRSMatrixWrapper`. dune/istl/eigenvalue/arpackpp.hh:193-203. -/
structure Wrapped where
  A : SpMat Blk
  m : Nat
  n : Nat
  dom : BVec
  ran : BVec

/-- The constructor, for blocks of `p` rows and `q` columns: note `M()` and `N()`. dune/istl/eigenvalue/arpackpp.hh:64-77. -/
def wrap (p q : Nat) (A : SpMat Blk) : Wrapped := ⟨A, A.m * p, A.n * q, ⟨A.n, fun _ _ => 0⟩, ⟨A.m, fun _ _ => 0⟩⟩

/-- `multMv(v, w)`: the array afterwards, and the wrapper. dune/istl/eigenvalue/arpackpp.hh:80-90. -/
noncomputable def multMv (p q : Nat) (W : Wrapped) (v w : List ℝ) : Res (List ℝ × Wrapped) := do
  let d ← fromArray q v W.dom
  let r ← mvC p q W.A d W.ran
  let w ← toArray p r w
  .ok (w, { W with dom := d, ran := r })

/-- `multMtMv(v, w)`. dune/istl/eigenvalue/arpackpp.hh:93-104. -/
noncomputable def multMtMv (p q : Nat) (W : Wrapped) (v w : List ℝ) : Res (List ℝ × Wrapped) := do
  let d ← fromArray q v W.dom
  let r ← mvC p q W.A d W.ran
  let d ← mtvC p q W.A r d
  let w ← toArray q d w
  .ok (w, { W with dom := d, ran := r })

/-- `multMMtv(v, w)`. dune/istl/eigenvalue/arpackpp.hh:107-118. -/
noncomputable def multMMtv (p q : Nat) (W : Wrapped) (v w : List ℝ) : Res (List ℝ × Wrapped) := do
  let r ← fromArray p v W.ran
  let d ← mtvC p q W.A r W.dom
  let r ← mvC p q W.A d r
  let w ← toArray p r w
  .ok (w, { W with dom := d, ran := r })

/-- The parameter `which` of ARPACK. -/
inductive Which where
  | LM | SM | LA | SA | BE
  deriving DecidableEq, Repr

/-- `ARSymStdEig(n, nev, &A, &product, which, ...)` and `Eigenvalues`: eigenvalues and raw eigenvectors; the product is called with arrays of
`n` numbers. ARPACK++ (contract). -/
abbrev Eig := (n nev : Nat) → (List ℝ → Res (List ℝ)) → Which → Res (List ℝ × List (List ℝ))

/-- The product as ARPACK++ calls it, on a workspace of `n` numbers. The auxiliary vectors of the wrapper start from `W`. -/
noncomputable def callMv (p q : Nat) (W : Wrapped) (n : Nat) (v : List ℝ) : Res (List ℝ) := do
  let r ← multMv p q W v (List.replicate n 0)
  .ok r.1

/-- The same for the normal product. -/
noncomputable def callMtMv (p q : Nat) (W : Wrapped) (n : Nat) (v : List ℝ) : Res (List ℝ) := do
  let r ← multMtMv p q W v (List.replicate n 0)
  .ok r.1

/-- `computeSymMaxMagnitude` (`LM`) and `computeSymMinMagnitude` (`SM`): eigenvalue and `x`. The residual is computed as in the code, for its
accesses. dune/istl/eigenvalue/arpackpp.hh:289-378, 392-482. -/
noncomputable def computeSym (ar : Eig) (which : Which) (p q : Nat) (A : SpMat Blk) (x : BVec) : Res (ℝ × BVec) := do
  let W := wrap p q A
  if W.m ≠ W.n then .throw .istlError
  else do
    let r ← ar W.m 1 (callMv p q W W.m) which
    let lam ← rd r.1 0
    let raw ← rd r.2 0
    let x ← fromArray q raw x
    let ax ← callMv p q W W.m raw
    let _ ← fromArray q ax x
    .ok (lam, x)

/-- `computeSymCond2`. dune/istl/eigenvalue/arpackpp.hh:493-594. -/
noncomputable def computeSymCond2 (ar : Eig) (p q : Nat) (A : SpMat Blk) : Res ℝ := do
  let W := wrap p q A
  if W.m ≠ W.n then .throw .istlError
  else do
    let r ← ar W.m 2 (callMv p q W W.m) .BE
    let hi ← rd r.1 1
    let lo ← rd r.1 0
    let xhi ← rd r.2 1
    let xlo ← rd r.2 0
    let _ ← callMv p q W W.m xhi
    let _ ← callMv p q W W.m xlo
    .ok |hi / lo|

/-- `computeNonSymMax` (`LA`) and `computeNonSymMin` (`SA`): singular value and `x`. dune/istl/eigenvalue/arpackpp.hh:609-706, 721-818. -/
noncomputable def computeNonSym (ar : Eig) (which : Which) (p q : Nat) (A : SpMat Blk) (x : BVec) : Res (ℝ × BVec) := do
  let W := wrap p q A
  if W.m < W.n then .throw .istlError
  else do
    let r ← ar W.n 1 (callMtMv p q W W.n) which
    let lam ← rd r.1 0
    let raw ← rd r.2 0
    let x ← fromArray q raw x
    let ax ← callMtMv p q W W.n raw
    let _ ← fromArray q ax x
    .ok (Real.sqrt lam, x)

/-- `computeNonSymCond2`. dune/istl/eigenvalue/arpackpp.hh:830-938. -/
noncomputable def computeNonSymCond2 (ar : Eig) (p q : Nat) (A : SpMat Blk) : Res ℝ := do
  let W := wrap p q A
  if W.m < W.n then .throw .istlError
  else do
    let r ← ar W.n 2 (callMtMv p q W W.n) .BE
    let hi ← rd r.1 1
    let lo ← rd r.1 0
    let xhi ← rd r.2 1
    let xlo ← rd r.2 0
    let _ ← callMtMv p q W W.n xhi
    let _ ← callMtMv p q W W.n xlo
    .ok (Real.sqrt hi / Real.sqrt lo)

end Arpack
end Istl

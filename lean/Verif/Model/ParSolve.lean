import Mathlib.Algebra.Field.Defs
import Mathlib.Algebra.Module.Pi
import Verif.Model.Schwarz
import Verif.Model.Krylov

/-!
# Parallel solvers

A parallel solver runs the code of `dune/istl/solvers.hh` on every process, with the parallel operator, preconditioner and scalar product.
All decisions depend on numbers that are the same on all processes, so a run is described by the sequence of distributed vectors: the
solver models of `Verif/Model/Solver.lean` and `Verif/Model/Krylov.lean` on vectors `Nat → Nat → V` (process, local index).
-/

namespace Istl
namespace Par
open Solver

variable {B V K Rl : Type} [AddCommGroup B] [AddCommGroup V] [Field K] [Module K V]

/-- `ParallelScalarProduct::dot(x,y)`; the masks are those of a new communication object (for other calls see C35).
dune/istl/scalarproducts.hh:140-145, dune/istl/owneroverlapcopy.hh:396-414. -/
def parDot (mul : V → V → K) (P : Nat) (pis : Nat → PIS) (sz : Nat → Nat) (x y : Nat → Nat → V) : K :=
  allSum (List.range P) fun p =>
    match localSum [] (pis p) (fun i => mul (x p i) (y p i)) (sz p) with
    | .ok r => r.1
    | _ => 0

/-- The components of a solver with an overlapping decomposition: `OverlappingSchwarzOperator`, `BlockPreconditioner` with the sequential
preconditioner `prec k p` in the call number `k` on process `p` (whose `pre` and `post` do nothing), `OverlappingSchwarzScalarProduct`.
`S` supplies the operations on scalars. dune/istl/schwarz.hh:87-150, 300-380; dune/istl/scalarproducts.hh:100-160. -/
def ovlpEnv (S : Env K Rl Unit) (β : BlockAct B V V) (P : Nat) (pis : Nat → PIS) (sz : Nat → Nat) (A : Nat → SpMat B)
    (prec : Nat → Nat → (Nat → V) → (Nat → V) → (Nat → V)) (order : Nat → List Nat) (mul : V → V → K) (nrm2 : V → K) (root : K → Rl) :
    Env K Rl (Nat → Nat → V) where
  pre x b := blockPrecPre (fun _ x b => (x, b)) pis order x b
  post x := x
  subOp x b := fun p => ovlpScaleAddOn β (A p) (pis p) (-1 : K) (x p) (b p)
  op x := fun p => ovlpApplyOn β (A p) (pis p) (x p)
  prec k d := blockPrecApply (prec k) pis order (fun _ _ => 0) d
  dot x y := parDot mul P pis sz x y
  norm x := root (parDot (fun a _ => nrm2 a) P pis sz x x)
  lt := S.lt
  finite := S.finite
  isZero := S.isZero
  abs := S.abs
  ofReal := S.ofReal
  sqrt := S.sqrt
  conj := S.conj
  rsqrt := S.rsqrt
  tiny := S.tiny
  eps := S.eps
  rotEps := S.rotEps

/-- What `novlp_op_apply` computes on process `p` (anything if it fails). dune/istl/novlpschwarz.hh:126-235. -/
def novLocal (β : BlockAct B V V) (P : Nat) (pis : Nat → PIS) (sz : Nat → Nat) (A : Nat → SpMat B) (alpha : K) (x : Nat → Nat → V) (p : Nat) :
    Nat → V :=
  match novOpOn β (A p) (pis p) (remoteOf P pis p) p (sz p) alpha (x p) (fun _ => 0) ⟨true, [], []⟩ with
  | .ok r => r.1
  | _ => fun _ => 0

/-- The same with a nonoverlapping decomposition: `NonoverlappingSchwarzOperator`, `NonoverlappingBlockPreconditioner`,
`NonoverlappingSchwarzScalarProduct`. dune/istl/novlpschwarz.hh:60-250, 270-350; dune/istl/scalarproducts.hh:100-190. -/
def novEnv (S : Env K Rl Unit) (β : BlockAct B V V) (P : Nat) (pis : Nat → PIS) (sz : Nat → Nat) (A : Nat → SpMat B)
    (prec : Nat → Nat → (Nat → V) → (Nat → V) → (Nat → V)) (order : Nat → List Nat) (mul : V → V → K) (nrm2 : V → K) (root : K → Rl) :
    Env K Rl (Nat → Nat → V) where
  pre x b := (x, b)
  post x := x
  subOp x b := novScaleAdd pis order (novLocal β P pis sz A (-1 : K) x) b
  op x := novApply pis order (novLocal β P pis sz A (1 : K) x)
  prec k d := novPrecApply (prec k) pis order (fun _ _ => 0) d
  dot x y := parDot mul P pis sz x y
  norm x := root (parDot (fun a _ => nrm2 a) P pis sz x x)
  lt := S.lt
  finite := S.finite
  isZero := S.isZero
  abs := S.abs
  ofReal := S.ofReal
  sqrt := S.sqrt
  conj := S.conj
  rsqrt := S.rsqrt
  tiny := S.tiny
  eps := S.eps
  rotEps := S.rotEps

end Par
end Istl

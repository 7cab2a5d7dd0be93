import Mathlib.Algebra.Field.Defs
import Mathlib.Algebra.Module.Pi
import Verif.Spec.Schwarz
import Verif.Spec.Simulation

/-! # The sequential solver a parallel solver is compared with -/

namespace Istl
namespace Par
open Solver

variable {B V K Rl : Type} [AddCommGroup B] [AddCommGroup V] [Field K] [Module K V]

/-- The components of a sequential solver for the global matrix `M` on the global indices `G`, with the preconditioner `W k` in the call
number `k` and the scalar product `∑ mul (X g) (Y g)`. -/
def globalEnv (S : Env K Rl Unit) (β : BlockAct B V V) (G : Finset Nat) (M : Nat → Nat → B) (W : Nat → (Nat → V) → Nat → V)
    (mul : V → V → K) (nrm2 : V → K) (root : K → Rl) : Env K Rl (Nat → V) where
  pre x b := (x, b)
  post x := x
  subOp x b := fun g => b g - globalMul β G M x g
  op x := globalMul β G M x
  prec k d := W k d
  dot x y := ∑ g ∈ G, mul (x g) (y g)
  norm x := root (∑ g ∈ G, nrm2 (x g))
  lt := S.lt
  finite := S.finite
  isZero := S.isZero
  abs := S.abs
  ofReal := S.ofReal
  sqrt := S.sqrt
  conj := S.conj
  rsqrt := S.rsqrt
  tiny := S.tiny
  eps := S.eps
  rotEps := S.rotEps

/-- How distributed vectors represent global ones in the overlapping case: the initial guess may be wrong outside the owner indices, the
right hand side at the copy indices; iterates are consistent and defects projected. -/
def ovlpRel (P : Nat) (pis : Nat → PIS) : Rel (Nat → Nat → V) (Nat → V) where
  start := ConsistentAtOwner P pis
  rhs := ConsistentExceptCopy P pis
  primal := Consistent P pis
  dual := Projected P pis
  any := ConsistentAtOwner P pis

/-- The same in the nonoverlapping case; defects are zero at overlap (ghost) indices, and so has to be the right hand side. -/
def novRel (P : Nat) (pis : Nat → PIS) : Rel (Nat → Nat → V) (Nat → V) where
  start := ConsistentExceptOverlap P pis
  rhs y Y := ConsistentExceptOverlap P pis y Y ∧ ∀ p, p < P → ∀ e ∈ pis p, e.attr = .overlap → y p e.loc = 0
  primal := ConsistentExceptOverlap P pis
  dual y Y := ConsistentExceptOverlap P pis y Y ∧ ∀ p, p < P → ∀ e ∈ pis p, e.attr = .overlap → y p e.loc = 0
  any := ConsistentAtOwner P pis

/-- Every solver of `dune/istl/solvers.hh`, run with the components `E` from `x`, `b`, does the same as with `F` from `y`, `c`: for all
parameters the same exception or none, the same iteration record, and solutions that represent each other. -/
structure AllSolversAgree {X Y : Type} [Add X] [SMul K X] [Zero X] [Add Y] [SMul K Y] [Zero Y] [DecidableEq K]
    [Zero Rl] [One Rl] [Add Rl] [Mul Rl] [Div Rl] (R : Rel X Y) (E : Env K Rl X) (F : Env K Rl Y) (x b : X) (y c : Y) : Prop where
  loop : ∀ red maxit, SameExit R (loopApply E red maxit x b) (loopApply F red maxit y c)
  gradient : ∀ red maxit, SameExit R (gradApply E red maxit x b) (gradApply F red maxit y c)
  cg : ∀ red maxit, SameExit R (cgApply E red maxit x b) (cgApply F red maxit y c)
  bicgstab : ∀ red maxit, SameExit R (biApply E red maxit x b) (biApply F red maxit y c)
  minres : ∀ red maxit, SameExit R (minApply E red maxit x b) (minApply F red maxit y c)
  gmres : ∀ red maxit m fuel, SameRun R (gmApply E red maxit m fuel x b) (gmApply F red maxit m fuel y c)
  fgmres : ∀ red maxit m fuel, SameRun R (fgmApply E red maxit m fuel x b) (fgmApply F red maxit m fuel y c)
  gpcg : ∀ red maxit m fuel, SameRun R (gpApply E red maxit m fuel x b) (gpApply F red maxit m fuel y c)
  rfcg : ∀ red maxit m fuel, SameRun R (rfcgApply E red maxit m fuel x b) (rfcgApply F red maxit m fuel y c)
  cfcg : ∀ red maxit m fuel, SameRun R (cfcgApply E red maxit m fuel x b) (cfcgApply F red maxit m fuel y c)

end Par
end Istl

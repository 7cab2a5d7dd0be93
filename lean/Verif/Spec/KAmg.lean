import Verif.Model.KAmg
import Verif.Spec.AmgCycle
import Verif.Spec.Gpcg

/-! # Specification: the Krylov cycle as a recursively defined (nonlinear) operator -/

namespace Istl
namespace Amg
open Solver
variable {K Rl V : Type}

/-- The arithmetic of a level, with the preconditioner `M` that is the same in each call. -/
def kEnv (E : Env K Rl V) (M : V → V) : Env K Rl V := { E with pre := fun x b => (x, b), post := fun x => x, prec := fun _ z => M z }

/-- What `GeneralizedPCGSolver` on level `l`, preconditioned by `M`, makes of the start vector `0` and the right hand side `r`. -/
def kgp [Add V] [SMul K V] [Zero V] [Zero K] [One K] [Neg K] [Mul K] [Div K] [Zero Rl] [Mul Rl]
    (Q : KParms K Rl V) (l : Nat) (M : V → V) (r : V) : V :=
  match gpApply (kEnv (Q.env l) M) Q.red Q.maxit Q.restart Q.maxit 0 r with
  | some e => e.x
  | none => 0

variable [AddCommGroup V] [SMul K V] [Zero K] [One K] [Neg K] [Mul K] [Div K] [Zero Rl] [Mul Rl]

/-- The Krylov cycle for the right hand side `b` on level `l` with `d` coarser levels below, starting from `0`: pre-smoothing, coarse grid
correction by the coarse solver if the next level is the coarsest, otherwise by the Krylov method preconditioned by the cycle of the next level,
damped prolongation of the correction, post-smoothing. -/
def kmg (S : Setup K V) (Q : KParms K Rl V) : Nat → Nat → V → V
  | 0, _, b => (S.solve 0 b).1
  | d + 1, l, b =>
    let u := relax (S.mat l) (S.pre l 0) b S.preSteps 0
    let r := S.restr l (b - S.mat l u)
    let c := if d = 0 then (S.solve 0 r).1 else kgp Q (l + 1) (kmg S Q d (l + 1)) r
    relax (S.mat l) (S.post l 0) b S.postSteps (u + S.prol l (S.damp • c))

omit [AddCommGroup V] [SMul K V] [Zero K] [One K] [Neg K] [Mul K] [Div K] [Zero Rl] [Mul Rl] in
/-- A multigrid hierarchy for symmetric positive definite problems: on the vectors `W l` of level `l` the operator `A l` is symmetric and positive
definite with respect to the scalar product `D l` of that level; restriction and prolongation are transposes of each other, the coarse operators
are the Galerkin products; the coarse solver is exact; smoothing (by any operators, linear or not) does not increase the energy functional
`x^T A x - 2 r^T x` from its value `0` at `x = 0`, and pre-smoothing decreases it unless `r = 0`; the correction is multiplied by a number between `0` and `2`; the Krylov methods work
with these operators and scalar products. -/
structure KHierarchy [Field K] [LinearOrder K] [IsStrictOrderedRing K] [AddCommGroup V] [Module K V] (D : Nat → V → V → K)
    (S : Setup K V) (Q : KParms K Rl V) (W : Nat → Submodule K V) (A : Nat → Module.End K V) : Prop where
  prod : ∀ l, ScalarProd (D l)
  mat : ∀ l x, S.mat l x = A l x
  symm : ∀ l, Adjoint (D l) (A l) (A l)
  mem_A : ∀ l, ∀ x ∈ W l, A l x ∈ W l
  pos : ∀ l, ∀ x ∈ W l, x ≠ 0 → 0 < D l (A l x) x
  mem_R : ∀ l, ∀ x ∈ W l, S.restr l x ∈ W (l + 1)
  mem_P : ∀ l, ∀ c ∈ W (l + 1), S.prol l c ∈ W l
  lin_P : ∀ l (a : K), ∀ c ∈ W (l + 1), S.prol l (a • c) = a • S.prol l c
  transfer : ∀ l, ∀ x ∈ W l, ∀ c ∈ W (l + 1), D (l + 1) (S.restr l x) c = D l x (S.prol l c)
  galerkin : ∀ l, ∀ c ∈ W (l + 1), A (l + 1) c = S.restr l (A l (S.prol l c))
  coarse : ∀ r ∈ W S.coarsest, (S.solve 0 r).1 ∈ W S.coarsest ∧ A S.coarsest (S.solve 0 r).1 = r
  pre : ∀ l, ∀ r ∈ W l, S.pre l 0 r ∈ W l ∧ quad (D l) (A l) r (S.pre l 0 r) ≤ 0 ∧ (r ≠ 0 → quad (D l) (A l) r (S.pre l 0 r) < 0)
  post : ∀ l, ∀ r ∈ W l, S.post l 0 r ∈ W l ∧ quad (D l) (A l) r (S.post l 0 r) ≤ 0
  damp : 0 ≤ S.damp ∧ S.damp ≤ 2
  dot : ∀ l x y, (Q.env l).dot x y = D l x y
  op : ∀ l x, (Q.env l).op x = A l x
  sub : ∀ l x b, (Q.env l).subOp x b = b - A l x

end Amg
end Istl

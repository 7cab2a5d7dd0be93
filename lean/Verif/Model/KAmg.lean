import Verif.Model.AmgCycle
import Verif.Model.Krylov

/-!
# The multigrid method with Krylov cycles: dune/istl/paamg/kamg.hh

Sequential case, as in Model/AmgCycle.lean. The Krylov method is the default one, `GeneralizedPCGSolver` (Model/Krylov.lean), run here with a
preconditioner that works on the vectors of the multigrid hierarchy.
-/

namespace Istl
namespace Amg
open Solver
variable {K Rl V : Type} [Zero V] [Add V] [Sub V] [SMul K V] [Zero K] [One K] [Neg K] [Mul K] [Div K] [Zero Rl] [Mul Rl]

/-- A `KAmgTwoGrid` object, by its coarse solver: that of `AMG`, or a Krylov method on a level preconditioned by another such object.
dune/istl/paamg/kamg.hh:53-55, 108-113. -/
inductive TG where
  | onCoarse
  | onKrylov (level : Nat) (prec : TG)
  deriving DecidableEq, Repr

/-- Parameters of the Krylov cycle: operator, scalar product and arithmetic of each level, `levelDefectReduction`, `maxLevelKrylovSteps`, and the
default value of the parameter `restart` of the Krylov method, `10`. dune/istl/paamg/kamg.hh:218-222, dune/istl/solvers.hh:1343. -/
structure KParms (K Rl V : Type) where
  env : Nat → Env K Rl V
  red : Rl
  maxit : Nat
  restart : Nat

/-- `prec_residual = 0; _prec->apply(prec_residual, b)` and the conjugation; `prec` is the call with `v = 0`. dune/istl/solvers.hh:1434-1444. -/
def kDirection (E : Env K Rl V) (prec : V → MG V V) (ii : Nat) (st : GpSt K V Rl) : MG V (GpSt K V Rl) := do
  let r ← prec st.b
  pure (gpDirection { E with prec := fun _ _ => r } 0 ii st)

/-- `Iteration::step`; a defect that is not finite throws. dune/istl/solver.hh:453-477. -/
def kStep (E : Env K Rl V) (red : Rl) (it : It Rl) (i : Nat) (d : Rl) : MG V (It Rl) :=
  match it.step E red i d with
  | none => Cmd.raise .solverAbort
  | some it => pure it

/-- The inner loop. dune/istl/solvers.hh:1430-1459. -/
def kInner (E : Env K Rl V) (prec : V → MG V V) (red : Rl) : Nat → Nat → Nat → GpSt K V Rl → It Rl → MG V (GpSt K V Rl × It Rl × Nat)
  | 0, _, i, st, it => pure (st, it, i)
  | n + 1, ii, i, st, it => do
    let st ← kDirection E prec ii st
    let st := gpMinimise E ii st
    let it ← kStep E red it (i + 1) st.d
    kInner E prec red n (ii + 1) (i + 1) st it

/-- What is kept of the directions when the loop restarts. dune/istl/solvers.hh:1465-1468. -/
def kRestart (restart e : Nat) (st : GpSt K V Rl) : GpSt K V Rl :=
  if e = restart then { st with p := upd st.p 0 (st.p (restart - 1)), pp := upd st.pp 0 (st.pp (restart - 1)) } else st

/-- The loop `while(i<_maxit)`; the number of passes is bounded by the first argument. dune/istl/solvers.hh:1430-1469. -/
def kOuter (E : Env K Rl V) (prec : V → MG V V) (red : Rl) (maxit restart : Nat) : Nat → Nat → GpSt K V Rl → It Rl → MG V (GpSt K V Rl)
  | 0, i, st, _ => if i < maxit then Cmd.undef else pure st
  | fuel + 1, i, st, it =>
    if i < maxit then do
      let r ← kInner E prec red (min restart (maxit - i + 1) - 1) 1 i st it
      if r.2.1.converged then pure r.1
      else
        let st := kRestart restart (min restart (maxit - i + 1)) r.1
        kOuter E prec red maxit restart fuel r.2.2 st r.2.1
    else pure st

/-- `GeneralizedPCGSolver::apply(x,b,res)`, the new `x`; `pre` and `post` of `KAmgTwoGrid` do nothing. dune/istl/solvers.hh:1391-1470,
dune/istl/paamg/kamg.hh:57-63. -/
def kSolve (E : Env K Rl V) (prec : V → MG V V) (red : Rl) (maxit restart fuel : Nat) (x b : V) : MG V V := do
  let it ← kStep E red It.start 0 (E.norm (E.subOp x b))
  if it.converged then pure x
  else do
    let p ← prec (E.subOp x b)
    let st := gpMinimise E 0 { x := x, b := E.subOp x b, p := fun _ => p, pp := fun _ => 0, d := E.norm (E.subOp x b) }
    let it ← kStep E red it 1 st.d
    if it.converged then pure st.x
    else do
      let st ← kOuter E prec red maxit restart fuel 1 st it
      pure st.x

/-- `KAmgTwoGrid::apply(v,d)`, the new `v`. Whether the coarse solver converged is not looked at. dune/istl/paamg/kamg.hh:66-89. -/
def TG.apply (S : Setup K V) (Q : KParms K Rl V) : TG → V → V → MG V V
  | .onCoarse, v, d => do
    setUpd 0
    setRhs d
    setLhs v
    times (preStep S) S.preSteps
    moveToCoarse S
    let b ← getRhs
    let x ← getUpd
    setUpd (S.solve x b).1
    moveToFine S
    times (postStep S) S.postSteps
    getUpd
  | .onKrylov l t, v, d => do
    setUpd 0
    setRhs d
    setLhs v
    times (preStep S) S.preSteps
    moveToCoarse S
    let b ← getRhs
    let x ← getUpd
    let x ← kSolve (Q.env l) (fun z => TG.apply S Q t 0 z) Q.red Q.maxit Q.restart Q.maxit x b
    setUpd x
    moveToFine S
    times (postStep S) S.postSteps
    getUpd

/-- The loop of `pre`: Krylov methods on the levels `m`, `m-1`, ..., `1`. dune/istl/paamg/kamg.hh:276-288. The vector `ksolvers` is a list with
the last element first. -/
def kpreLoop : Nat → List TG → Res (List TG)
  | 0, ks => .ok ks
  | _ + 1, [] => .ub
  | m + 1, t :: ks => kpreLoop m (.onKrylov (m + 1) t :: t :: ks)

/-- `KAMG::pre`: what it adds to `ksolvers`. The vectors set up by `AMG::pre` are part of the state. dune/istl/paamg/kamg.hh:253-289. -/
def kpre (S : Setup K V) (ks : List TG) : Res (List TG) :=
  if S.coarsest = 0 then .ok ks else kpreLoop (S.coarsest - 1) (.onCoarse :: ks)

/-- `KAMG::apply(v,d)`, the new `v`. dune/istl/paamg/kamg.hh:300-317. -/
def kapply (S : Setup K V) (Q : KParms K Rl V) (ks : List TG) (v d : V) : MG V V :=
  match ks with
  | [] => pure (S.solve v d).1
  | t :: _ => do
    Cmd.modify fun s => { s with cur := fineCursor }
    t.apply S Q v d

end Amg
end Istl

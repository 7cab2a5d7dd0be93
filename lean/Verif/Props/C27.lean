import Verif.Lemmas.Solver
import Verif.Spec.SolverDemo

/-!
# C27: iterative solvers never report convergence that did not happen

No algebraic law and no property of the comparison is assumed: the theorems hold for every operator, preconditioner, scalar product and
norm and also for floating point arithmetic. `Truthful E red e d0 dn`: the run recorded finite defects for the consecutive steps
`0,...,n`, the first `d0`, the last `dn`, and the reported statistics are `iterations = n`, `reduction = dn/d0` and `converged` exactly if
`dn < d0*red` or `dn < 1e-30`. Here `d0` is the norm of the initial defect and `dn` the norm of the *returned* vector `b`, except for
MINRES and GMRes, which record an estimate (see C48 for its meaning in exact arithmetic).
-/

namespace Istl
namespace Solver

variable {K Rl X : Type}

section
variable [Add X] [SMul K X] [Mul Rl] [Zero Rl] [Div Rl] [Zero K] [Neg K] [Div K]

theorem RunSpec.truthful {E : Env K Rl X} {red d0 : Rl} {maxit : Nat} {strict : Prop} {e : Exit X Rl}
    (h : RunSpec E red maxit strict (fun _ b d => d = E.norm b) d0 e) (hx : e.exc = none) : Truthful E red e d0 (E.norm e.b) := by
  obtain ⟨g, hd, ⟨x', -, hc⟩, -⟩ := h.ok hx
  have := g.truthful (E := E) (red := red)
  rw [hd, hc] at this
  exact this

theorem RunSpec.truthful' {E : Env K Rl X} {red d0 : Rl} {maxit : Nat} {strict : Prop} {I : X → X → Rl → Prop} {e : Exit X Rl}
    (h : RunSpec E red maxit strict I d0 e) (hx : e.exc = none) : Truthful E red e d0 e.it.cur := by
  obtain ⟨g, hd, -, -⟩ := h.ok hx
  have := g.truthful (E := E) (red := red)
  rw [hd] at this
  exact this

/-- The statistics after an exception: no recorded step at all, or a record whose last defect did not converge. -/
theorem RunSpec.aborted {E : Env K Rl X} {red d0 : Rl} {maxit : Nat} {I : X → X → Rl → Prop} {e : Exit X Rl}
    (h : RunSpec E red maxit True I d0 e) (hx : e.exc ≠ none) (hf : E.finite d0 = true) :
    (e.it.finalize E red).converged = false ∧ Truthful E red e d0 e.it.cur := by
  rcases (h.bad hx).2 with ⟨h1, -⟩ | ⟨g, hd, hs, -⟩
  · rw [h1] at hf; cases hf
  · have hc := hs trivial
    rw [g.conv] at hc
    have := g.truthful (E := E) (red := red)
    rw [hd] at this
    exact ⟨hc, this⟩

/-- **LoopSolver** reports truthfully. -/
theorem C27_loop (E : Env K Rl X) (red : Rl) (maxit : Nat) (x b : X) (h : (loopApply (K := K) E red maxit x b).exc = none) :
    Truthful E red (loopApply (K := K) E red maxit x b) (E.norm (defect0 E x b)) (E.norm (loopApply (K := K) E red maxit x b).b) :=
  (loop_run E red maxit x b).truthful h

/-- **GradientSolver** reports truthfully. -/
theorem C27_gradient (E : Env K Rl X) (red : Rl) (maxit : Nat) (x b : X) (h : (gradApply E red maxit x b).exc = none) :
    Truthful E red (gradApply E red maxit x b) (E.norm (defect0 E x b)) (E.norm (gradApply E red maxit x b).b) :=
  (grad_run E red maxit x b).truthful h

/-- **CGSolver** reports truthfully. -/
theorem C27_cg (E : Env K Rl X) (red : Rl) (maxit : Nat) (x b : X) (h : (cgApply E red maxit x b).exc = none) :
    Truthful E red (cgApply E red maxit x b) (E.norm (defect0 E x b)) (E.norm (cgApply E red maxit x b).b) :=
  (cg_run E red maxit x b).truthful h

/-- **BiCGSTABSolver** reports truthfully; its record counts half steps, and the reported number of iterations is half of it, rounded
down. -/
theorem C27_bicgstab [One K] [Mul K] [Zero X] (E : Env K Rl X) (red : Rl) (maxit : Nat) (x b : X)
    (h : (biApply E red maxit x b).exc = none) :
    Truthful E red (biApply E red maxit x b) (E.norm (defect0 E x b)) (E.norm (biApply E red maxit x b).b) ∧
    ((biApply E red maxit x b).it.finalizeHalf E red).iterations =
      ((biApply E red maxit x b).it.finalize E red).iterations / 2 ∧
    ((biApply E red maxit x b).it.finalizeHalf E red).converged = ((biApply E red maxit x b).it.finalize E red).converged :=
  ⟨(bi_run E red maxit x b).truthful h, rfl, rfl⟩

/-- After an exception in **LoopSolver**, **GradientSolver**, **CGSolver** or **BiCGSTABSolver**, provided the initial defect was
finite, the statistics say "not converged". -/
theorem C27_abort [One K] [Mul K] [Zero X] (E : Env K Rl X) (red : Rl) (maxit : Nat) (x b : X) (e : Exit X Rl)
    (he : e = loopApply (K := K) E red maxit x b ∨ e = gradApply E red maxit x b ∨ e = cgApply E red maxit x b ∨
      e = biApply E red maxit x b) (hx : e.exc ≠ none) (hf : E.finite (E.norm (defect0 E x b)) = true) :
    (e.it.finalize E red).converged = false := by
  rcases he with rfl | rfl | rfl | rfl
  · exact ((loop_run E red maxit x b).aborted hx hf).1
  · exact ((grad_run E red maxit x b).aborted hx hf).1
  · exact ((cg_run E red maxit x b).aborted hx hf).1
  · exact ((bi_run E red maxit x b).aborted hx hf).1

end

section
variable [Add X] [SMul K X] [Zero X] [Zero K] [One K] [Neg K] [Mul K] [Div K] [Zero Rl] [Mul Rl] [Div Rl]

/-- **GeneralizedPCGSolver** reports truthfully. -/
theorem C27_gpcg (E : Env K Rl X) (red : Rl) (maxit restart fuel : Nat) (x b : X) (e : Exit X Rl)
    (he : gpApply E red maxit restart fuel x b = some e) (h : e.exc = none) :
    Truthful E red e (E.norm (defect0 E x b)) (E.norm e.b) :=
  (gp_run he).truthful h

/-- **RestartedFCGSolver** reports truthfully. -/
theorem C27_restartedfcg (E : Env K Rl X) (red : Rl) (maxit mmax fuel : Nat) (x b : X) (e : Exit X Rl)
    (he : rfcgApply E red maxit mmax fuel x b = some e) (h : e.exc = none) :
    Truthful E red e (E.norm (defect0 E x b)) (E.norm e.b) :=
  (rfcg_run he).truthful h

/-- **CompleteFCGSolver** reports truthfully. -/
theorem C27_completefcg (E : Env K Rl X) (red : Rl) (maxit mmax fuel : Nat) (x b : X) (e : Exit X Rl)
    (he : cfcgApply E red maxit mmax fuel x b = some e) (h : e.exc = none) :
    Truthful E red e (E.norm (defect0 E x b)) (E.norm e.b) :=
  (cfcg_run he).truthful h

variable [Add K] [Sub K] [One Rl] [Add Rl]

/-- **MINRESSolver** reports the record of its defect estimate truthfully. -/
theorem C27_minres (E : Env K Rl X) (red : Rl) (maxit : Nat) (x b : X) (h : (minApply E red maxit x b).exc = none) :
    Truthful E red (minApply E red maxit x b) (E.norm (E.prec 0 (defect0 E x b))) (minApply E red maxit x b).it.cur :=
  (min_run E red maxit x b).truthful' h

/-- **RestartedGMResSolver** reports the record of its defect estimate truthfully. -/
theorem C27_gmres [DecidableEq K] (E : Env K Rl X) (red : Rl) (maxit m fuel : Nat) (x b : X) (e : Exit X Rl) (hm : 0 < m)
    (he : gmApply E red maxit m fuel x b = some e) (h : e.exc = none) :
    Truthful E red e (E.norm (E.prec 0 (defect0 E x b))) e.it.cur :=
  (gm_run hm he).truthful' h

/-- **RestartedFlexibleGMResSolver** reports the record of its defect estimate truthfully. -/
theorem C27_fgmres [DecidableEq K] (E : Env K Rl X) (red : Rl) (maxit m fuel : Nat) (x b : X) (e : Exit X Rl) (hm : 0 < m)
    (he : fgmApply E red maxit m fuel x b = some e) (h : e.exc = none) :
    Truthful E red e (E.norm (defect0 E x b)) e.it.cur :=
  (fgm_run hm he).truthful' h

end

/-! ## Non-vacuity and the two cases where the statistics mislead -/

/-- CG converges in two steps on the example matrix. -/
example : (cgApply demoEnv (1 / 100) 10 (0, 0) (1, 2)).exc = none ∧
    ((cgApply demoEnv (1 / 100) 10 (0, 0) (1, 2)).it.finalize demoEnv (1 / 100)).converged = true ∧
    (cgApply demoEnv (1 / 100) 10 (0, 0) (1, 2)).it.i = 2 := by
  refine ⟨by decide +kernel, by decide +kernel, by decide +kernel⟩

/-- One gradient step is not enough: not converged. -/
example : (gradApply demoEnv (1 / 100) 1 (0, 0) (1, 2)).exc = none ∧
    ((gradApply demoEnv (1 / 100) 1 (0, 0) (1, 2)).it.finalize demoEnv (1 / 100)).converged = false := by
  refine ⟨by decide +kernel, by decide +kernel⟩

/-- **An infinite or NaN initial defect is reported as converged**: `step(0,def)` throws before recording anything, and the destructor
of `Iteration` then evaluates the test for the default defect `0 < 1e-30`. The caller that catches `SolverAbort` finds
`res.converged = true`. -/
theorem C27_abort_step0_counterexample :
    (cgApply demoEnv (1 / 100) 10 (0, 0) (2000, 2)).exc = some .solverAbort ∧
    ((cgApply demoEnv (1 / 100) 10 (0, 0) (2000, 2)).it.finalize demoEnv (1 / 100)).converged = true := by
  refine ⟨by decide +kernel, by decide +kernel⟩

/-- **The flexible CG solvers throw `SolverAbort` after they have found the exact solution**: the inner loop does not stop at convergence,
the next step divides `0/0`, and `step` throws because of the NaN. Here the system is `1 * x = 1`, solved exactly by the first step
(recorded defects `1, 0`), yet `apply` throws. -/
theorem C27_exact_solution_aborts_counterexample :
    (rfcgApply nanEnv (.num (1 / 100)) 5 3 5 (.num 0) (.num 1)).map (fun e => (e.exc, e.it.trace)) =
      some (some .solverAbort, [(0, .num 1), (1, .num 0)]) ∧
    (cfcgApply nanEnv (.num (1 / 100)) 5 3 5 (.num 0) (.num 1)).map (fun e => (e.exc, e.it.trace)) =
      some (some .solverAbort, [(0, .num 1), (1, .num 0)]) ∧
    (cgApply nanEnv (.num (1 / 100)) 5 (.num 0) (.num 1)).exc = none := by
  refine ⟨by decide +kernel, by decide +kernel, by decide +kernel⟩

end Solver
end Istl

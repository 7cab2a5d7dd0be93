import Verif.Props.C28
import Mathlib.Algebra.Module.LinearMap.Defs
import Mathlib.Algebra.Field.Defs
import Mathlib.Tactic.Abel
import Mathlib.Tactic.Ring
import Mathlib.Algebra.Field.Rat

/-!
# C29: the recursively updated defect is the true defect

Vectors form a module over a field (exact arithmetic), the operator is linear; preconditioner, scalar product and norm are arbitrary.
-/

namespace Istl
namespace Solver

variable {K Rl X : Type} [Field K] [AddCommGroup X] [Module K X]

/-- The operator object computes `A`: `apply(x,y)` sets `y = A x`, `applyscaleadd(-1,x,b)` sets `b = b - A x`. -/
structure Computes (E : Env K Rl X) (A : X →ₗ[K] X) : Prop where
  op : ∀ x, E.op x = A x
  sub : ∀ x b, E.subOp x b = b - A x

/-- `b` is the defect of `x` for the right hand side `b0`; on normal return `x` is seen before the preconditioner's `post`. -/
def TrueDefect (E : Env K Rl X) (A : X →ₗ[K] X) (b0 : X) (e : Exit X Rl) : Prop :=
  (e.exc = none → ∃ x', e.x = E.post x' ∧ e.b = b0 - A x') ∧ (e.exc ≠ none → e.b = b0 - A e.x)

theorem RunSpec.trueDefect [Mul Rl] [Zero Rl] {E : Env K Rl X} {A : X →ₗ[K] X} {red d0 : Rl} {maxit : Nat} {strict : Prop}
    {e : Exit X Rl} {b0 : X} (h : RunSpec E red maxit strict (fun x b _ => b = b0 - A x) d0 e) : TrueDefect E A b0 e :=
  ⟨fun hx => (h.ok hx).2.2.1, fun hx => (h.inv hx).choose_spec⟩

/-- One correction step `x += c p, b -= c A p` keeps the relation. -/
theorem defect_step {A : X →ₗ[K] X} {b0 x b p : X} (c : K) (h : b = b0 - A x) :
    b + (-c) • A p = b0 - A (x + c • p) := by
  rw [h, map_add, map_smul, neg_smul]; abel

variable [Mul Rl] [Zero Rl]

/-- LoopSolver: `b = b0 - A x`. -/
theorem C29_loop (E : Env K Rl X) (A : X →ₗ[K] X) (hA : Computes E A) (red : Rl) (maxit : Nat) (x b : X) :
    TrueDefect E A (E.pre x b).2 (loopApply (K := K) E red maxit x b) := by
  refine (frame_spec (E := E) (fun x' b' _ => b' = (E.pre x b).2 - A x') (fun s _ => s.2 = (E.pre x b).2 - A s.1) (hA.sub _ _)
    (hA.sub _ _) (fun i s _ h => ?_) (fun _ _ _ h => h) (fun _ _ h => h)).trueDefect
  change E.subOp _ _ = _ - A (s.1 + E.prec i s.2)
  rw [hA.sub, h, map_add]; abel

/-- GradientSolver: `b = b0 - A x`. -/
theorem C29_gradient (E : Env K Rl X) (A : X →ₗ[K] X) (hA : Computes E A) (red : Rl) (maxit : Nat) (x b : X) :
    TrueDefect E A (E.pre x b).2 (gradApply E red maxit x b) := by
  refine (frame_spec (E := E) (fun x' b' _ => b' = (E.pre x b).2 - A x') (fun s _ => s.b = (E.pre x b).2 - A s.x) (hA.sub _ _)
    (hA.sub _ _) (fun i s _ h => ?_) (fun _ _ _ h => h) (fun _ _ h => h)).trueDefect
  dsimp only [gradAdvance]
  rw [hA.op]
  exact defect_step _ h

/-- CGSolver: `b = b0 - A x`. -/
theorem C29_cg (E : Env K Rl X) (A : X →ₗ[K] X) (hA : Computes E A) (red : Rl) (maxit : Nat) (x b : X) :
    TrueDefect E A (E.pre x b).2 (cgApply E red maxit x b) := by
  unfold cgApply
  refine (frame_spec (E := E) (init := cgInit E) (after := cgAfter E) (fun x' b' _ => b' = (E.pre x b).2 - A x') (fun (s : CgSt K X Rl) _ => s.b = (E.pre x b).2 - A s.x)
    (hA.sub _ _) (hA.sub _ _) (fun i s _ h => ?_) (fun _ _ _ h => h) (fun _ _ h => h)).trueDefect
  dsimp only [cgAdvance]
  rw [hA.op]
  exact defect_step _ h

/-- BiCGSTABSolver: `b = b0 - A x`. -/
theorem C29_bicgstab (E : Env K Rl X) (A : X →ₗ[K] X) (hA : Computes E A) (red : Rl) (maxit : Nat) (x b : X) :
    TrueDefect E A (E.pre x b).2 (biApply E red maxit x b) := by
  refine (bi_spec (E := E) (fun x' b' _ => b' = (E.pre x b).2 - A x') (fun s _ => s.r = (E.pre x b).2 - A s.x) (hA.sub _ _)
    (hA.sub _ _) (fun k s d s' rho h hf => ?_) (fun k s d rho h => ?_) (fun _ _ h => h)).trueDefect
  · obtain ⟨al, y, -, h2, h3, -, -⟩ := biFirst_eq hf
    rw [h3, h2, hA.op]
    exact defect_step _ h
  · dsimp only [biSecond]
    rw [hA.op]
    exact defect_step _ h

/-- GeneralizedPCGSolver: `b = b0 - A x`. -/
theorem C29_gpcg (E : Env K Rl X) (A : X →ₗ[K] X) (hA : Computes E A) (red : Rl) (maxit restart fuel : Nat) (x b : X) (e : Exit X Rl)
    (he : gpApply E red maxit restart fuel x b = some e) : TrueDefect E A (E.pre x b).2 e := by
  have key : ∀ ii (st : GpSt K X Rl), st.b = (E.pre x b).2 - A st.x →
      (gpMinimise E ii st).b = (E.pre x b).2 - A (gpMinimise E ii st).x := by
    intro ii st h
    dsimp only [gpMinimise]
    rw [hA.op]
    exact defect_step _ h
  exact (gp_spec (E := E) (fun x' b' _ => b' = (E.pre x b).2 - A x') (fun s _ => s.b = (E.pre x b).2 - A s.x) (hA.sub _ _)
    (fun p pp => key 0 _ (hA.sub _ _)) (fun i ii st d h => key ii _ h) (fun _ _ _ _ h => h) (fun _ _ h => h) he).trueDefect

theorem fc_step_defect {E : Env K Rl X} {A : X →ₗ[K] X} (hA : Computes E A) {orth : Nat → X → FcSt K X Rl → FcSt K X Rl}
    (ho : ∀ ib w st, (orth ib w st).x = st.x ∧ (orth ib w st).b = st.b) {b0 : X} (i ib : Nat) (st : FcSt K X Rl)
    (h : st.b = b0 - A st.x) : (fcStep E orth i ib st).b = b0 - A (fcStep E orth i ib st).x := by
  dsimp only [fcStep]
  rw [hA.op]
  refine defect_step _ ?_
  rw [(ho _ _ _).1, (ho _ _ _).2]
  exact h

/-- RestartedFCGSolver: `b = b0 - A x`. -/
theorem C29_restartedfcg (E : Env K Rl X) (A : X →ₗ[K] X) (hA : Computes E A) (red : Rl) (maxit mmax fuel : Nat) (x b : X)
    (e : Exit X Rl) (he : rfcgApply E red maxit mmax fuel x b = some e) : TrueDefect E A (E.pre x b).2 e :=
  (fc_spec (E := E) (orth := fcOrthRestarted E) (cycle := fcCycleRestarted mmax) (fun x' b' _ => b' = (E.pre x b).2 - A x') (fun s _ => s.b = (E.pre x b).2 - A s.x) (hA.sub _ _)
    (fun _ _ _ => hA.sub _ _) (fun i ib st d h => fc_step_defect (orth := fcOrthRestarted E) hA (fun _ _ _ => ⟨rfl, rfl⟩) i ib st h) (fun _ _ h => h)
    (fun _ _ h => h) he).trueDefect

/-- CompleteFCGSolver: `b = b0 - A x`. -/
theorem C29_completefcg (E : Env K Rl X) (A : X →ₗ[K] X) (hA : Computes E A) (red : Rl) (maxit mmax fuel : Nat) (x b : X)
    (e : Exit X Rl) (he : cfcgApply E red maxit mmax fuel x b = some e) : TrueDefect E A (E.pre x b).2 e :=
  (fc_spec (E := E) (orth := fcOrthComplete E) (cycle := fcCycleComplete mmax) (fun x' b' _ => b' = (E.pre x b).2 - A x') (fun s _ => s.b = (E.pre x b).2 - A s.x) (hA.sub _ _)
    (fun _ _ _ => hA.sub _ _) (fun i ib st d h => fc_step_defect (orth := fcOrthComplete E) hA (fun _ _ _ => ⟨rfl, rfl⟩) i ib st h) (fun _ _ h => h)
    (fun _ _ h => h) he).trueDefect

/-- **What "converged" means to the caller**: if one of these solvers returns normally and reports convergence, the true residual
`b0 - A x'` of the iterate it found (`x = post x'`) satisfies the test against the true initial residual. -/
theorem C29_converged_residual [Div Rl] (E : Env K Rl X) (A : X →ₗ[K] X) (hA : Computes E A) (red : Rl) (maxit n fuel : Nat)
    (x b : X) (e : Exit X Rl)
    (he : e = loopApply (K := K) E red maxit x b ∨ e = gradApply E red maxit x b ∨ e = cgApply E red maxit x b ∨
      e = biApply E red maxit x b ∨ gpApply E red maxit n fuel x b = some e ∨ rfcgApply E red maxit n fuel x b = some e ∨
      cfcgApply E red maxit n fuel x b = some e)
    (hx : e.exc = none) (hc : (e.it.finalize E red).converged = true) :
    ∃ x', e.x = E.post x' ∧
      Reached E red (E.norm ((E.pre x b).2 - A (E.pre x b).1)) (E.norm ((E.pre x b).2 - A x')) := by
  have key : TrueDefect E A (E.pre x b).2 e ∧ Truthful E red e (E.norm (defect0 E x b)) (E.norm e.b) := by
    rcases he with rfl | rfl | rfl | rfl | he | he | he
    · exact ⟨C29_loop E A hA red maxit x b, C27_loop E red maxit x b hx⟩
    · exact ⟨C29_gradient E A hA red maxit x b, C27_gradient E red maxit x b hx⟩
    · exact ⟨C29_cg E A hA red maxit x b, C27_cg E red maxit x b hx⟩
    · exact ⟨C29_bicgstab E A hA red maxit x b, (C27_bicgstab E red maxit x b hx).1⟩
    · exact ⟨C29_gpcg E A hA red maxit n fuel x b e he, C27_gpcg E red maxit n fuel x b e he hx⟩
    · exact ⟨C29_restartedfcg E A hA red maxit n fuel x b e he, C27_restartedfcg E red maxit n fuel x b e he hx⟩
    · exact ⟨C29_completefcg E A hA red maxit n fuel x b e he, C27_completefcg E red maxit n fuel x b e he hx⟩
  obtain ⟨x', h1, h2⟩ := key.1.1 hx
  refine ⟨x', h1, ?_⟩
  have := key.2.converged.1 hc
  rw [h2] at this
  rwa [defect0, hA.sub] at this

/-! ## Non-vacuity: the example operator is linear -/

/-- `demoOp` as a linear map. -/
def demoLin : ℚ × ℚ →ₗ[ℚ] ℚ × ℚ where
  toFun := demoOp
  map_add' x y := by ext <;> simp [demoOp] <;> ring
  map_smul' c x := by ext <;> simp [demoOp] <;> ring

theorem demo_computes : Computes demoEnv demoLin := ⟨fun _ => rfl, fun _ _ => rfl⟩

example : ∃ x', (cgApply demoEnv (1 / 100) 10 (0, 0) (1, 2)).x = x' ∧
    Reached demoEnv (1 / 100) (demoEnv.norm ((1, 2) - demoLin (0, 0))) (demoEnv.norm ((1, 2) - demoLin x')) :=
  C29_converged_residual demoEnv demoLin demo_computes (1 / 100) 10 0 0 (0, 0) (1, 2) _ (Or.inr (Or.inr (Or.inl rfl)))
    (by decide +kernel) (by decide +kernel)

end Solver
end Istl

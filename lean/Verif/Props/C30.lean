import Verif.Lemmas.Cg
import Mathlib.Algebra.Order.Ring.Rat
import Mathlib.Tactic.Positivity
import Mathlib.Tactic.Linarith
import Mathlib.LinearAlgebra.FiniteDimensional.Basic

/-!
# C30: CG directions are conjugate and CG is exact in `dim` steps

`cgState E x b d k` is the state of `CGSolver::apply` after `k` passes of its loop (`x_k`, residual `r_k = .b`, direction `p_k = .p`).
`C30_run` says that the vectors a real run returns are those of this sequence. Exact arithmetic over a field; `g` is the scalar product,
`A` the operator, `B` the preconditioner, both self-adjoint (`Symmetric`).
-/

namespace Istl
namespace Solver

variable {K Rl X : Type} [Field K] [AddCommGroup X] [Module K X] [Mul Rl] [Zero Rl]

/-- The returned `x` and `b` are the iterate and residual of the sequence at the reported step. -/
theorem C30_run (E : Env K Rl X) (red : Rl) (maxit : Nat) (x b : X) (hx : (cgApply E red maxit x b).exc = none) :
    (cgApply E red maxit x b).x = E.post (cgState E (E.pre x b).1 (defect0 E x b) (E.norm (defect0 E x b))
      (cgApply E red maxit x b).it.i).x ∧
    (cgApply E red maxit x b).b = (cgState E (E.pre x b).1 (defect0 E x b) (E.norm (defect0 E x b))
      (cgApply E red maxit x b).it.i).b :=
  ⟨(cg_run_seq E red maxit x b hx).1, (cg_run_seq E red maxit x b hx).2.1⟩

/-- **Conjugacy**: as long as no breakdown occurs before step `k`, all directions up to `k` are mutually `A`-conjugate, every residual is
orthogonal to all earlier directions and to all earlier preconditioned residuals. -/
theorem C30_conjugate (E : Env K Rl X) (g : LinearMap.BilinForm K X) (A B : X →ₗ[K] X) (h : Symmetric E g A B) (x b : X) (d : Rl)
    (k : Nat) (hnb : ∀ j, j < k → E.isZero (cgState E x b d j).d = false ∧
      g (cgState E x b d j).p (A (cgState E x b d j).p) ≠ 0 ∧ g (B (cgState E x b d j).b) (cgState E x b d j).b ≠ 0)
    (hk : E.isZero (cgState E x b d k).d = false) :
    ∀ i j, i < j → j ≤ k →
      g (cgState E x b d i).p (A (cgState E x b d j).p) = 0 ∧
      g (cgState E x b d j).p (A (cgState E x b d i).p) = 0 ∧
      g (cgState E x b d i).p (cgState E x b d j).b = 0 ∧
      g (B (cgState E x b d i).b) (cgState E x b d j).b = 0 := by
  intro i j hij hj
  have O := cg_orth h k hnb hk
  refine ⟨O.pAp i j hij hj, ?_, O.pr i j hij hj, O.zr i j hij hj⟩
  rw [← h.adjA, h.comm]
  exact O.pAp i j hij hj

/-- **Optimality**: the iterate `x_k` minimises the energy `<y,Ay> - 2 <y,b0>` over `x_k + span(p_0,...,p_{k-1})` (which contains `x_0`),
if `A` is positive semidefinite. -/
theorem C30_minimises [LinearOrder K] [IsStrictOrderedRing K] (E : Env K Rl X) (g : LinearMap.BilinForm K X) (A B : X →ₗ[K] X)
    (h : Symmetric E g A B) (hA : ∀ y, 0 ≤ g y (A y)) (x b b0 : X) (h0 : b = b0 - A x) (d : Rl)
    (k : Nat) (hnb : ∀ j, j < k → E.isZero (cgState E x b d j).d = false ∧
      g (cgState E x b d j).p (A (cgState E x b d j).p) ≠ 0 ∧ g (B (cgState E x b d j).b) (cgState E x b d j).b ≠ 0)
    (hk : E.isZero (cgState E x b d k).d = false) (v : X)
    (hv : v ∈ Submodule.span K {p | ∃ j, j < k ∧ p = (cgState E x b d j).p}) :
    g (cgState E x b d k).x (A (cgState E x b d k).x) - 2 * g (cgState E x b d k).x b0 ≤
      g ((cgState E x b d k).x + v) (A ((cgState E x b d k).x + v)) - 2 * g ((cgState E x b d k).x + v) b0 := by
  have O := cg_orth h k hnb hk
  have hr : g v (cgState E x b d k).b = 0 := by
    induction hv using Submodule.span_induction with
    | mem y hy => obtain ⟨j, hj, rfl⟩ := hy; exact O.pr j k hj (le_refl _)
    | zero => rw [map_zero, LinearMap.zero_apply]
    | add y z _ _ hy hz => rw [map_add, LinearMap.add_apply, hy, hz, add_zero]
    | smul c y _ hy => rw [map_smul, LinearMap.smul_apply, hy, smul_zero]
  rw [cg_defect h b0 h0 k, map_sub] at hr
  have h1 := hA v
  have h2 : g (cgState E x b d k).x (A v) = g v (A (cgState E x b d k).x) := by rw [h.comm, h.adjA]
  simp only [map_add, LinearMap.add_apply]
  linarith

/-- **Directions span the search space**: the sequence moves only inside `x_0 + span(p_0,...,p_{k-1})`. -/
theorem C30_in_span (E : Env K Rl X) (x b : X) (d : Rl) (k : Nat) :
    (cgState E x b d k).x - x ∈ Submodule.span K {p | ∃ j, j < k ∧ p = (cgState E x b d j).p} := by
  induction k with
  | zero =>
    change x - x ∈ _
    rw [sub_self]; exact Submodule.zero_mem _
  | succ k ih =>
    change (cgState E x b d k).x + _ • (cgState E x b d k).p - x ∈ _
    rw [add_sub_right_comm]
    refine Submodule.add_mem _ (Submodule.span_mono ?_ ih) (Submodule.smul_mem _ _ (Submodule.subset_span ⟨k, by omega, rfl⟩))
    rintro p ⟨j, hj, rfl⟩
    exact ⟨j, by omega, rfl⟩

/-- **Exactness**: for positive definite `A` and `B` on a space of dimension `n`, some residual `r_k`, `k ≤ n`, is zero; so with
`maxit ≥ n` the solver returns normally, converged, after at most `n` iterations. -/
theorem C30_exact [LinearOrder K] [IsStrictOrderedRing K] [Module.Finite K X] [Div Rl] (E : Env K Rl X)
    (g : LinearMap.BilinForm K X) (A B : X →ₗ[K] X) (h : Symmetric E g A B)
    (hA : ∀ x, x ≠ 0 → 0 < g x (A x)) (hB : ∀ x, x ≠ 0 → 0 < g (B x) x)
    (hz : ∀ y, E.isZero (E.norm y) = true ↔ y = 0) (hfin : ∀ y, E.finite (E.norm y) = true)
    (htiny : E.lt (E.norm 0) E.tiny = true) (red : Rl) (maxit : Nat) (hm : Module.finrank K X ≤ maxit) (x b : X) :
    (cgApply E red maxit x b).exc = none ∧
    ((cgApply E red maxit x b).it.finalize E red).converged = true ∧
    ((cgApply E red maxit x b).it.finalize E red).iterations ≤ Module.finrank K X := by
  have hx : (cgApply E red maxit x b).exc = none := by
    by_contra hne
    have hrun := cg_run E red maxit x b
    rcases (hrun.bad hne).2 with ⟨h1, -⟩ | _
    · rw [hfin] at h1; cases h1
    · exact cg_never_aborts E red maxit x b hfin hne
  obtain ⟨k, hk, hk0⟩ := cg_finite (x := (E.pre x b).1) (b := defect0 E x b) h ⟨hA, hB⟩ hz
  obtain ⟨-, -, h3, h4⟩ := cg_run_seq E red maxit x b hx
  have hsm : small E red (E.norm (defect0 E x b)) (E.norm (cgState E (E.pre x b).1 (defect0 E x b) (E.norm (defect0 E x b)) k).b) =
      true := by
    rw [hk0]; simp [small, htiny]
  have g' := ((cg_run E red maxit x b).ok hx).1
  cases hc : (cgApply E red maxit x b).it.converged with
  | false => rw [h4 hc k (by omega)] at hsm; cases hsm
  | true =>
    refine ⟨hx, ?_, ?_⟩
    · rw [g'.conv] at hc; exact hc
    · change (cgApply E red maxit x b).it.i ≤ _
      by_contra hlt
      rw [h3 hc k (by omega)] at hsm; cases hsm

/-! ## Non-vacuity: the example matrix with the Euclidean scalar product -/

/-- The Euclidean scalar product. -/
def demoForm : LinearMap.BilinForm ℚ (ℚ × ℚ) :=
  LinearMap.mk₂ ℚ (fun x y => x.1 * y.1 + x.2 * y.2) (by intros; simp; ring) (by intros; simp; ring) (by intros; simp; ring)
    (by intros; simp; ring)

/-- The example environment without an `inf`. -/
def demoEnvFin : Env ℚ ℚ (ℚ × ℚ) := { demoEnv with finite := fun _ => true }

theorem demo_symmetric : Symmetric demoEnvFin demoForm demoLin LinearMap.id where
  dot _ _ := rfl
  comm x y := by simp [demoForm]; ring
  op _ := rfl
  sub _ _ := rfl
  prec _ _ := rfl
  adjA x y := by simp [demoForm, demoLin, demoOp]; ring
  adjB _ _ := rfl

theorem demo_posA (x : ℚ × ℚ) (hx : x ≠ 0) : 0 < demoForm x (demoLin x) := by
  obtain ⟨a, b⟩ := x
  have e : demoForm (a, b) (demoLin (a, b)) = a ^ 2 + (a + b) ^ 2 + 2 * b ^ 2 := by
    simp [demoForm, demoLin, demoOp]; ring
  rw [e]
  by_contra hle
  have ha : a ^ 2 = 0 := by nlinarith [sq_nonneg a, sq_nonneg (a + b), sq_nonneg b]
  have hb : b ^ 2 = 0 := by nlinarith [sq_nonneg a, sq_nonneg (a + b), sq_nonneg b]
  exact hx (Prod.ext (pow_eq_zero_iff (two_ne_zero) |>.1 ha) (pow_eq_zero_iff (two_ne_zero) |>.1 hb))

theorem demo_posI (x : ℚ × ℚ) (hx : x ≠ 0) : 0 < demoForm ((LinearMap.id : ℚ × ℚ →ₗ[ℚ] ℚ × ℚ) x) x := by
  obtain ⟨a, b⟩ := x
  have e : demoForm ((LinearMap.id : ℚ × ℚ →ₗ[ℚ] ℚ × ℚ) (a, b)) (a, b) = a ^ 2 + b ^ 2 := by simp [demoForm]; ring
  rw [e]
  by_contra hle
  have ha : a ^ 2 = 0 := by nlinarith [sq_nonneg a, sq_nonneg b]
  have hb : b ^ 2 = 0 := by nlinarith [sq_nonneg a, sq_nonneg b]
  exact hx (Prod.ext (pow_eq_zero_iff (two_ne_zero) |>.1 ha) (pow_eq_zero_iff (two_ne_zero) |>.1 hb))

theorem demo_isZero (y : ℚ × ℚ) : demoEnvFin.isZero (demoEnvFin.norm y) = true ↔ y = 0 := by
  obtain ⟨a, b⟩ := y
  change decide (|a| + |b| = 0) = true ↔ _
  rw [decide_eq_true_iff]
  constructor
  · intro h
    have ha := abs_nonneg a
    have hb := abs_nonneg b
    exact Prod.ext (abs_eq_zero.1 (by linarith)) (abs_eq_zero.1 (by linarith))
  · rintro h
    obtain ⟨rfl, rfl⟩ := Prod.mk.inj h
    simp

/-- For every right hand side CG solves the example system within `2` steps. -/
example (b : ℚ × ℚ) : (cgApply demoEnvFin (1 / 100) 2 (0, 0) b).exc = none ∧
    ((cgApply demoEnvFin (1 / 100) 2 (0, 0) b).it.finalize demoEnvFin (1 / 100)).converged = true := by
  have h2 : Module.finrank ℚ (ℚ × ℚ) = 2 := by simp
  have := C30_exact demoEnvFin demoForm demoLin LinearMap.id demo_symmetric demo_posA demo_posI demo_isZero (fun _ => rfl)
    (by decide +kernel) (1 / 100) 2 (by omega) (0, 0) b
  exact ⟨this.1, this.2.1⟩

/-- No breakdown in the first step of the example: the hypotheses of `C30_conjugate` hold with `k = 1`. -/
example : demoEnvFin.isZero (cgState demoEnvFin (0, 0) (1, 2) 3 1).d = false ∧
    demoEnvFin.isZero (cgState demoEnvFin (0, 0) (1, 2) 3 0).d = false := by
  refine ⟨by decide +kernel, by decide +kernel⟩

end Solver
end Istl

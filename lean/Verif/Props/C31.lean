import Verif.Lemmas.FrameSeq
import Verif.Props.C30

/-!
# C31: a gradient step leaves a defect orthogonal to its search direction

`gradState E x b d k` is the state of `GradientSolver::apply` after `k` passes of its loop. Exact arithmetic over a field; `g` is the
scalar product, `A` the operator; the preconditioner is arbitrary and may change from call to call.
-/

namespace Istl
namespace Solver

variable {K Rl X : Type} [Field K] [AddCommGroup X] [Module K X] [Mul Rl] [Zero Rl]

/-- The states of the gradient method. -/
def gradState (E : Env K Rl X) (x b : X) (d : Rl) : Nat → GradSt K X Rl
  | 0 => { x := x, b := b, d := d }
  | k + 1 => gradAdvance E (k + 1) (gradState E x b d k)

/-- The returned `x` and `b` are those of the sequence at the reported step. -/
theorem C31_run (E : Env K Rl X) (red : Rl) (maxit : Nat) (x b : X) (hx : (gradApply E red maxit x b).exc = none) :
    (gradApply E red maxit x b).x = E.post (gradState E (E.pre x b).1 (defect0 E x b) (E.norm (defect0 E x b))
      (gradApply E red maxit x b).it.i).x ∧
    (gradApply E red maxit x b).b = (gradState E (E.pre x b).1 (defect0 E x b) (E.norm (defect0 E x b))
      (gradApply E red maxit x b).it.i).b :=
  frame_seq (σ := GradSt K X Rl) E red maxit E.norm (gradAdvance E) (fun s => s.d) (fun _ s => s)
    (fun x b d => { x := x, b := b, d := d }) (fun s => s.x) (fun s => s.b) x b
    (gradState E (E.pre x b).1 (defect0 E x b) (E.norm (defect0 E x b))) rfl rfl rfl (fun _ => rfl) (fun _ _ => ⟨rfl, rfl⟩)
    (fun _ _ => rfl) hx

/-- **Orthogonality**: with `p` the preconditioned defect used in pass `k + 1`, the new defect is orthogonal to `p`, if `<p,Ap> ≠ 0` and
the defect norm is not zero. The new iterate differs from the old one by a multiple of `p` and the defect changes accordingly. -/
theorem C31_orthogonal (E : Env K Rl X) (g : LinearMap.BilinForm K X) (A : X →ₗ[K] X) (hg : ∀ x y, E.dot x y = g x y)
    (hs : ∀ x y, g x y = g y x) (hA : ∀ x, E.op x = A x) (x b : X) (d : Rl) (k : Nat)
    (hz : E.isZero (gradState E x b d k).d = false) :
    let s := gradState E x b d k
    let s' := gradState E x b d (k + 1)
    let p := E.prec (k + 1) s.b
    (∃ lam : K, s'.x = s.x + lam • p ∧ s'.b = s.b - lam • A p) ∧ s'.d = E.norm s'.b ∧ (g p (A p) ≠ 0 → g p s'.b = 0) := by
  intro s s' p
  have hb : s'.b = s.b + (-(if E.isZero s.d = true then 0 else E.dot p s.b / E.dot (E.op p) p)) • E.op p := rfl
  refine ⟨⟨_, rfl, ?_⟩, rfl, fun hne => ?_⟩
  · rw [hb, hA, neg_smul, ← sub_eq_add_neg]
  · rw [hb, hz, hA, hg, hg, hs (A p) p]
    simp only [Bool.false_eq_true, if_false, map_add, map_smul, smul_eq_mul]
    field_simp
    ring

/-- **Line minimisation**: the new iterate minimises the energy `<y,Ay> - 2 <y,b0>` along the search direction, for symmetric `A` with
`<p,Ap> > 0`. -/
theorem C31_minimises [LinearOrder K] [IsStrictOrderedRing K] (E : Env K Rl X) (g : LinearMap.BilinForm K X) (A : X →ₗ[K] X)
    (hg : ∀ x y, E.dot x y = g x y) (hs : ∀ x y, g x y = g y x) (hA : ∀ x, E.op x = A x) (hadj : ∀ x y, g (A x) y = g x (A y))
    (x b b0 : X) (h0 : b = b0 - A x) (d : Rl) (k : Nat) (hz : E.isZero (gradState E x b d k).d = false)
    (hp : 0 < g (E.prec (k + 1) (gradState E x b d k).b) (A (E.prec (k + 1) (gradState E x b d k).b))) (t : K) :
    let s := gradState E x b d k
    let x' := (gradState E x b d (k + 1)).x
    let y := s.x + t • E.prec (k + 1) s.b
    g x' (A x') - 2 * g x' b0 ≤ g y (A y) - 2 * g y b0 := by
  intro s x' y
  have htrue : ∀ k, (gradState E x b d k).b = b0 - A (gradState E x b d k).x := by
    intro k
    induction k with
    | zero => exact h0
    | succ k ih =>
      change (gradState E x b d k).b + _ • E.op _ = _ - A ((gradState E x b d k).x + _ • _)
      rw [hA]
      exact defect_step _ ih
  obtain ⟨⟨lam, hx', -⟩, -, ho⟩ := C31_orthogonal E g A hg hs hA x b d k hz
  have ho := ho hp.ne'
  rw [htrue (k + 1)] at ho
  change g (E.prec (k + 1) s.b) (b0 - A x') = 0 at ho
  change x' = s.x + lam • E.prec (k + 1) s.b at hx'
  have hy : y = x' + (t - lam) • E.prec (k + 1) s.b := by
    rw [hx', sub_smul]; change s.x + _ = _; abel
  change 0 < g (E.prec (k + 1) s.b) (A (E.prec (k + 1) s.b)) at hp
  generalize E.prec (k + 1) s.b = p at *
  have h2 : g x' (A p) = g p (A x') := by rw [hs, hadj]
  have h3 : 0 ≤ (t - lam) * ((t - lam) * g p (A p)) := by
    rw [← mul_assoc]; exact mul_nonneg (mul_self_nonneg _) hp.le
  rw [map_sub] at ho
  rw [hy]
  simp only [map_add, map_smul, LinearMap.add_apply, LinearMap.smul_apply, smul_eq_mul]
  rw [h2]
  linear_combination h3 + 2 * (t - lam) * ho

/-- The energy never grows along the run. -/
theorem C31_energy_decreases [LinearOrder K] [IsStrictOrderedRing K] (E : Env K Rl X) (g : LinearMap.BilinForm K X) (A : X →ₗ[K] X)
    (hg : ∀ x y, E.dot x y = g x y) (hs : ∀ x y, g x y = g y x) (hA : ∀ x, E.op x = A x) (hadj : ∀ x y, g (A x) y = g x (A y))
    (x b b0 : X) (h0 : b = b0 - A x) (d : Rl) (k : Nat) (hz : E.isZero (gradState E x b d k).d = false)
    (hp : 0 < g (E.prec (k + 1) (gradState E x b d k).b) (A (E.prec (k + 1) (gradState E x b d k).b))) :
    g (gradState E x b d (k + 1)).x (A (gradState E x b d (k + 1)).x) - 2 * g (gradState E x b d (k + 1)).x b0 ≤
      g (gradState E x b d k).x (A (gradState E x b d k).x) - 2 * g (gradState E x b d k).x b0 := by
  have := C31_minimises E g A hg hs hA hadj x b b0 h0 d k hz hp 0
  simpa using this

/-- The step of GeneralizedPCGSolver along its direction `p[ii]` has the same property, without symmetry. -/
theorem C31_gpcg_step (E : Env K Rl X) (g : LinearMap.BilinForm K X) (A : X →ₗ[K] X) (hg : ∀ x y, E.dot x y = g x y)
    (hA : ∀ x, E.op x = A x) (ii : Nat) (st : GpSt K X Rl) (hne : g (st.p ii) (A (st.p ii)) ≠ 0) :
    g (st.p ii) (gpMinimise E ii st).b = 0 := by
  simp only [gpMinimise, hg, hA, map_add, map_smul, smul_eq_mul]
  field_simp
  ring

/-- The same for the flexible CG solvers: the new defect is orthogonal to the direction stored in this step. -/
theorem C31_fcg_step (E : Env K Rl X) (g : LinearMap.BilinForm K X) (A : X →ₗ[K] X) (hg : ∀ x y, E.dot x y = g x y)
    (hA : ∀ x, E.op x = A x) (orth : Nat → X → FcSt K X Rl → FcSt K X Rl) (horth : ∀ ib w st, (orth ib w st).b = st.b)
    (i ib : Nat) (st : FcSt K X Rl)
    (hne : g ((fcStep E orth i ib st).d ib) (A ((fcStep E orth i ib st).d ib)) ≠ 0) :
    g ((fcStep E orth i ib st).d ib) (fcStep E orth i ib st).b = 0 := by
  simp only [fcStep, hg, hA, map_add, map_smul, smul_eq_mul, horth] at hne ⊢
  field_simp
  ring

/-- The second half step of BiCGSTAB leaves a residual orthogonal to the direction `t` used in it. -/
theorem C31_bicgstab_step (E : Env K Rl X) (g : LinearMap.BilinForm K X) (hg : ∀ x y, E.dot x y = g x y)
    (k : Nat) (s : BiSt K X Rl) (rho : K) (hz : E.isZero s.norm = false)
    (hne : g (E.op (E.prec (2 * k + 1) s.r)) (E.op (E.prec (2 * k + 1) s.r)) ≠ 0) :
    g (E.op (E.prec (2 * k + 1) s.r)) (biSecond E k s rho).r = 0 := by
  simp only [biSecond, hg, map_add, map_smul, smul_eq_mul, hz]
  simp only [Bool.false_eq_true, if_false]
  field_simp
  ring

/-! ## Non-vacuity -/

/-- In the example the first two gradient steps satisfy the hypotheses and do change the iterate. -/
example : demoEnvFin.isZero (gradState demoEnvFin (0, 0) (1, 2) 3 1).d = false ∧
    0 < demoForm (demoEnvFin.prec 2 (gradState demoEnvFin (0, 0) (1, 2) 3 1).b)
      (demoLin (demoEnvFin.prec 2 (gradState demoEnvFin (0, 0) (1, 2) 3 1).b)) := by
  have hz : demoEnvFin.isZero (gradState demoEnvFin (0, 0) (1, 2) 3 1).d = false := by decide +kernel
  refine ⟨hz, demo_posA _ fun h => ?_⟩
  have : (gradState demoEnvFin (0, 0) (1, 2) 3 1).b = 0 := h
  have h2 := (demo_isZero (gradState demoEnvFin (0, 0) (1, 2) 3 1).b).2 this
  have h3 : demoEnvFin.isZero (demoEnvFin.norm (gradState demoEnvFin (0, 0) (1, 2) 3 1).b) = false := hz
  rw [h3] at h2; cases h2

example : (gradApply demoEnvFin (1 / 100) 20 (0, 0) (1, 2)).exc = none := by decide +kernel

end Solver
end Istl

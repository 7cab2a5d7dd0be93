import Verif.Lemmas.PowerIt5
import Verif.Lemmas.PowerIt6
import Verif.Spec.SolverDemo
import Mathlib.Analysis.InnerProductSpace.EuclideanDist
import Mathlib.Analysis.Complex.Basic
import Mathlib.LinearAlgebra.Complex.FiniteDimensional

/-!
# C68 — the eigenvalue algorithms of `PowerIteration_Algorithms`

Arithmetic is exact except in `C68_nan`; `big` stands for `numeric_limits<Real>::max()`.
-/

namespace Istl

open scoped InnerProductSpace
open Filter Topology Pow
open Solver (Fl)

variable {E : Type} [NormedAddCommGroup E] [InnerProductSpace ℝ E] {A : E →ₗ[ℝ] E} {big : ℝ}
  {m : SpMat (PBlock ℝ)} {b : Nat} {sol : PObj ℝ → E → E → Res E}

/-! ### What a call returns -/

/-- `applyPowerIteration` stops at the first iterate `A^n x` (normalised) whose residual is at most `epsilon`, returns
that vector and its Rayleigh quotient, and `getIterationCount()` is `n`; if none of the first `nIterationsMax` iterates
qualifies, it throws `ISTLError` and the count is one more than the maximum. -/
theorem C68_power {o : PObj ℝ} {x : E} {lam ε : ℝ} (hx : ∀ k, (A ^ k) x ≠ 0) (hε : ε < big) (maxIt : Nat) :
    (∃ n s, 1 ≤ n ∧ n ≤ maxIt ∧ applyPowerIteration (realEnv A big) maxIt ε o x lam = (s, .ok ()) ∧
      getIterationCount s.obj = .ok n ∧ s.x = unitVec ((A ^ n) x) ∧ ApproxPair A ε s.x s.lam ∧
      ∀ j, 1 ≤ j → j < n → ε < residual A ((A ^ j) x)) ∨
    (∃ s, applyPowerIteration (realEnv A big) maxIt ε o x lam = (s, .throw .istlError) ∧
      getIterationCount s.obj = .ok (maxIt + 1) ∧ ∀ j, 1 ≤ j → j ≤ maxIt → ε < residual A ((A ^ j) x)) := by
  rcases power_run (o := o) (lam := lam) hx hε maxIt with ⟨n, s, h1, h2, h3, h4, h5, h6, h7, h8⟩ | ⟨s, h1, h2, h3⟩
  · refine Or.inl ⟨n, s, h1, h2, h3, ?_, h5, ⟨?_, h6, ?_⟩, h8⟩
    · rw [getIterationCount, if_neg (by omega), h4]
    · rw [h5]; exact norm_unitVec (hx n)
    · rw [h6, h5]; exact h7
  · refine Or.inr ⟨s, h1, ?_, h3⟩
    rw [getIterationCount, if_neg (by omega), h2]

/-- A normal return of `applyInverseIteration` with shift: the pair is a unit vector with its Rayleigh quotient and a
residual of at most `epsilon`, whichever value the template flag has, for every solver that is exact when it returns. -/
theorem C68_inverse (hsol : ExactEigSolver A m b sol) {o : PObj ℝ} (ho : InSync m b o) (hs : Shiftable m o)
    {γ ε : ℝ} {avoid : Bool} {x : E} (hx : x ≠ 0) (hε : ε < big) {lam : ℝ} {maxIt : Nat} {s : PState ℝ E}
    (h : applyInverseIterationShift (realEnv A big) m b maxIt avoid γ ε sol o x lam = (s, .ok ())) :
    ApproxPair A ε s.x s.lam ∧ 1 ≤ s.obj.nIt ∧ s.obj.nIt ≤ maxIt := by
  obtain ⟨o', ho1, ho2, ho3, _, ho4⟩ := updateShiftMu_ok (env := realEnv A big) (fun a b => eq_true) γ hs ho
  unfold applyInverseIterationShift at h
  rw [ho1] at h
  obtain ⟨⟨⟨h1, _, _, h4⟩, _⟩, h5, _, h7, h8⟩ := powLoop_inv (P := fun s => Ready A big m b s ∧ s.obj.mu = γ)
    (fun s s' hP hst => invStep_ready hsol avoid γ hP hst) maxIt
    ⟨ready_start (A := A) (big := big) ho2 ho4 hx lam, ho3⟩ h
  have h9 := h8 (gt_true.mpr hε)
  rcases h4 with h4 | ⟨g1, g2, g3⟩
  · rw [h4] at h5; exact absurd (gt_false.mp h5) (not_le.mpr hε)
  · refine ⟨⟨g1, g2, by rw [← g3]; exact gt_false.mp h5⟩, ?_, ?_⟩
    · have : (powStart (realEnv A big) o' x lam).obj.nIt = 0 := rfl
      omega
    · have : (powStart (realEnv A big) o' x lam).obj.nIt = 0 := rfl
      omega

/-- The same for `applyRayleighQuotientIteration`. -/
theorem C68_rayleigh (hsol : ExactEigSolver A m b sol) {o : PObj ℝ} (ho : InSync m b o) (hs : Shiftable m o)
    {ε : ℝ} {avoid : Bool} {x : E} (hx : x ≠ 0) (hε : ε < big) {lam : ℝ} {maxIt : Nat} {s : PState ℝ E}
    (h : applyRayleighQuotientIteration (realEnv A big) m b maxIt avoid ε sol o x lam = (s, .ok ())) :
    ApproxPair A ε s.x s.lam ∧ 1 ≤ s.obj.nIt ∧ s.obj.nIt ≤ maxIt := by
  obtain ⟨⟨h1, _, _, h4⟩, h5, _, h7, h8⟩ := powLoop_inv (P := fun s => Ready A big m b s)
    (fun s s' hP hst => rqiStep_ready hsol avoid hP hst) maxIt (ready_start (A := A) (big := big) ho hs hx lam) h
  have h9 := h8 (gt_true.mpr hε)
  have h0 : (powStart (realEnv A big) o x lam).obj.nIt = 0 := rfl
  rcases h4 with h4 | ⟨g1, g2, g3⟩
  · rw [h4] at h5; exact absurd (gt_false.mp h5) (not_le.mpr hε)
  · exact ⟨⟨g1, g2, by rw [← g3]; exact gt_false.mp h5⟩, by omega, by omega⟩

/-- The same for `applyTLIMEIteration`; moreover its `assert` never fails, and `extrnl == false` is right: for a
symmetric matrix the interval `(gamma-eta, gamma+eta)` then contains an eigenvalue. -/
theorem C68_tlime [FiniteDimensional ℝ E] (hA : SymMap A) (hsol : ExactEigSolver A m b sol) {o : PObj ℝ}
    (ho : InSync m b o) (hs : Shiftable m o) {γ η ε δ : ℝ} {k : Nat} {avoid : Bool} {x : E} (hx : x ≠ 0) (hε : ε < big)
    {lam : ℝ} {maxIt : Nat} {s : PState ℝ E}
    (h : applyTLIMEIteration (realEnv A big) m b maxIt avoid γ η ε δ k sol o x lam = (s, .ok ())) :
    ApproxPair A ε s.x s.lam ∧ 1 ≤ s.obj.nIt ∧ s.obj.nIt ≤ maxIt ∧ s.asserted = true ∧
      (s.extrnl = false → ∃ μ, IsEigenvalue A μ ∧ γ - η < μ ∧ μ < γ + η) := by
  obtain ⟨⟨⟨h1, _, _, h4⟩, ha, hex⟩, h5, _, h7, h8⟩ := powLoop_inv (P := fun s => TReady A big m b γ η s)
    (fun s s' hP hst => tlimeStep_ready hsol avoid hP hst) maxIt
    ⟨ready_start (A := A) (big := big) ho hs hx lam, rfl, fun h => by cases h⟩ h
  have h9 := h8 (gt_true.mpr hε)
  have h0 : (powStart (realEnv A big) o x lam).obj.nIt = 0 := rfl
  rcases h4 with h4 | ⟨g1, g2, g3⟩
  · rw [h4] at h5; exact absurd (gt_false.mp h5) (not_le.mpr hε)
  · refine ⟨⟨g1, g2, by rw [← g3]; exact gt_false.mp h5⟩, by omega, by omega, ha, fun hf => ?_⟩
    obtain ⟨u, hu, hlt⟩ := hex hf
    obtain ⟨μ, hμ, hle⟩ := eigenvalue_near hA hu γ
    have := abs_lt.mp (lt_of_le_of_lt hle hlt)
    exact ⟨μ, hμ, by linarith [this.1], by linarith [this.2]⟩

/-- For a symmetric matrix the target residual bounds the error of the returned eigenvalue. -/
theorem C68_error [FiniteDimensional ℝ E] (hA : SymMap A) {ε : ℝ} {x : E} {lam : ℝ} (h : ApproxPair A ε x lam) :
    ∃ μ, IsEigenvalue A μ ∧ |μ - lam| ≤ ε := by
  obtain ⟨μ, h1, h2⟩ := eigenvalue_near hA h.1 lam
  exact ⟨μ, h1, h2.trans h.2.2⟩

/-! ### Convergence -/

/-- For a symmetric positive semidefinite matrix and a start vector outside its kernel, the power iteration reaches
every positive target residual: with enough iterations allowed it returns normally. -/
theorem C68_power_terminates [FiniteDimensional ℝ E] (hA : PsdMap A) {x : E} (hx : A x ≠ 0) {ε : ℝ} (h0 : 0 < ε)
    (hε : ε < big) : ∃ N, ∀ maxIt, N ≤ maxIt → ∀ o lam,
      ∃ s, applyPowerIteration (realEnv A big) maxIt ε o x lam = (s, .ok ()) ∧ ApproxPair A ε s.x s.lam := by
  obtain ⟨N, hN⟩ := resid_tendsto hA hx h0
  refine ⟨N + 1, fun maxIt hm o lam => ?_⟩
  rcases C68_power (o := o) (lam := lam) (fun k => (pow_ne hA hx k).1) hε maxIt with
    ⟨n, s, _, _, h3, _, _, h6, _⟩ | ⟨s, _, _, h3⟩
  · exact ⟨s, h3, h6⟩
  · exact absurd (hN (N + 1) (by omega)) (not_le.mpr (h3 _ (by omega) hm))

/-- ... and the eigenvalue found is the dominant one: if `mu` is the largest eigenvalue and the start vector is not
orthogonal to an eigenvector of it, then every small enough `epsilon` makes the returned `lambda` as close to `mu` as
desired. -/
theorem C68_power_dominant [FiniteDimensional ℝ E] (hA : PsdMap A) {x v : E} (hx : A x ≠ 0) {μ : ℝ}
    (hv : A v = μ • v) (htop : ∀ z, ⟪z, A z⟫_ℝ ≤ μ * ⟪z, z⟫_ℝ) (hvx : ⟪v, x⟫_ℝ ≠ 0) {δ : ℝ} (hδ : 0 < δ) :
    ∃ ε₀, 0 < ε₀ ∧ ∀ ε, ε ≤ ε₀ → ε < big → ∀ maxIt o lam s,
      applyPowerIteration (realEnv A big) maxIt ε o x lam = (s, .ok ()) → |s.lam - μ| ≤ δ := by
  have hne := fun k => (pow_ne hA hx k).1
  have hlim := quo_tendsto_top hA hx hv htop hvx
  have hμ : 0 < μ := lt_of_lt_of_le (quo_pos hA hx 0) (quo_le hA hx htop 0)
  have t1 : Tendsto (fun k : Nat => 2 * k) atTop atTop :=
    tendsto_atTop_mono (fun k => by dsimp only [id]; omega) tendsto_id
  have hpow : ∀ j, (A ^ j) v = μ ^ j • v := by
    intro j
    induction j with
    | zero => simp
    | succ j ih => rw [pow_apply, ih, map_smul, hv, smul_smul, pow_succ]
  obtain ⟨e, he, h⟩ := small_eps (res := fun n => residual A ((A ^ n) x)) (lm := fun n => quo A x (2 * n)) hδ
    (fun n => norm_nonneg _) (fun n hn => by
      rw [← (resid_mom hA hx n).2]
      refine resid_zero hA.1 hv (hne n) ?_ hn
      rw [← sym_pow hA.1, hpow, real_inner_smul_left]
      exact mul_ne_zero (pow_ne_zero _ hμ.ne') hvx) (hlim.comp t1)
  refine ⟨e, he, fun ε h1 h2 maxIt o lam s hs => ?_⟩
  rcases power_run (o := o) (lam := lam) hne h2 maxIt with ⟨n, s', _, _, h3, _, h5, h6, h7, _⟩ | ⟨s', h3, _⟩
  · rw [hs] at h3
    cases h3
    have := h ε n h1 h7
    rwa [← (resid_mom hA hx n).2, ← h5, ← h6] at this
  · rw [hs] at h3; cases h3

/-- Without semidefiniteness it may never converge: eigenvalues `1` and `-1` in balance give an `ISTLError` for every
iteration limit and every target below one. -/
theorem C68_power_oscillates (hA : SymMap A) (hAA : ∀ z, A (A z) = z) {x : E} (hx : ‖x‖ = 1) (horth : ⟪x, A x⟫_ℝ = 0)
    {ε : ℝ} (hε : ε < 1) (hb : ε < big) (maxIt : Nat) (o : PObj ℝ) (lam : ℝ) :
    ∃ s, applyPowerIteration (realEnv A big) maxIt ε o x lam = (s, .throw .istlError) := by
  have hn : ∀ z, ‖A z‖ = ‖z‖ := fun z => by
    have h1 : ‖A z‖ * ‖A z‖ = ‖z‖ * ‖z‖ := by
      rw [← real_inner_self_eq_norm_mul_norm, hA, hAA, real_inner_self_eq_norm_mul_norm]
    exact (mul_self_inj (norm_nonneg _) (norm_nonneg _)).mp h1
  have hp : ∀ k, ‖(A ^ k) x‖ = 1 ∧ ⟪(A ^ k) x, A ((A ^ k) x)⟫_ℝ = 0 := by
    intro k
    induction k with
    | zero => exact ⟨hx, horth⟩
    | succ k ih =>
      rw [pow_apply]
      refine ⟨by rw [hn]; exact ih.1, ?_⟩
      rw [hAA, real_inner_comm]; exact ih.2
  have hu : ∀ k, unitVec ((A ^ k) x) = (A ^ k) x := fun k => by rw [unitVec, (hp k).1, div_one, one_smul]
  have hne : ∀ k, (A ^ k) x ≠ 0 := fun k h => by
    have := (hp k).1
    rw [h, norm_zero] at this
    exact zero_ne_one this
  have hr : ∀ k, residual A ((A ^ k) x) = 1 := fun k => by
    rw [residual, hu, (hp k).2, zero_smul, sub_zero, hn, (hp k).1]
  rcases C68_power (o := o) (lam := lam) hne hb maxIt with ⟨n, s, _, _, _, _, h5, h6, _⟩ | ⟨s, h, _⟩
  · exfalso
    have h7 : residual A ((A ^ n) x) ≤ ε := by
      have := h6.2.2
      rw [h6.2.1, h5] at this
      exact this
    rw [hr] at h7
    linarith
  · exact ⟨s, h⟩

/-- The solver finds a solution for every right-hand side. -/
def TotalEigSolver (A : E →ₗ[ℝ] E) (m : SpMat (PBlock ℝ)) (b : Nat) (γ : ℝ) (sol : PObj ℝ → E → E → Res E) : Prop :=
  ∀ o y x, InSync m b o → o.mu = γ → ∃ z, sol o y x = .ok z ∧ A z - γ • z = x

/-- `A - gamma*I` is symmetric positive definite: the shift lies below the spectrum of a symmetric matrix. -/
def Above (A : E →ₗ[ℝ] E) (γ : ℝ) : Prop := SymMap A ∧ ∀ z, z ≠ 0 → γ * ⟪z, z⟫_ℝ < ⟪z, A z⟫_ℝ

theorem above_inverse [FiniteDimensional ℝ E] {γ : ℝ} (hA : Above A γ) :
    ∃ S : E →ₗ[ℝ] E, PsdMap S ∧ (∀ z, A (S z) - γ • S z = z) ∧ (∀ z, S (A z - γ • z) = z) := by
  let P : E →ₗ[ℝ] E := A - γ • LinearMap.id
  have hP : ∀ z, P z = A z - γ • z := fun z => rfl
  have hinj : Function.Injective P := by
    rw [injective_iff_map_eq_zero]
    intro z hz
    by_contra h0
    have := hA.2 z h0
    rw [hP, sub_eq_zero] at hz
    rw [hz, real_inner_smul_right] at this
    exact lt_irrefl _ this
  let e := LinearEquiv.ofInjectiveEndo P hinj
  have h1 : ∀ z, P (e.symm z) = z := fun z => LinearEquiv.apply_symm_apply e z
  have h2 : ∀ z, e.symm (P z) = z := fun z => LinearEquiv.symm_apply_apply e z
  refine ⟨e.symm.toLinearMap, ⟨?_, ?_⟩, fun z => h1 z, fun z => h2 z⟩
  · intro x y
    have hs : ∀ u w, ⟪P u, w⟫_ℝ = ⟪u, P w⟫_ℝ := fun u w => by
      rw [hP, hP, inner_sub_left, inner_sub_right, hA.1, real_inner_smul_left, real_inner_smul_right]
    have := hs (e.symm x) (e.symm y)
    rw [h1, h1] at this
    exact this.symm
  · intro x
    change 0 ≤ ⟪x, e.symm x⟫_ℝ
    have h3 : ⟪x, e.symm x⟫_ℝ = ⟪e.symm x, A (e.symm x)⟫_ℝ - γ * ⟪e.symm x, e.symm x⟫_ℝ := by
      conv_lhs => rw [← h1 x]
      rw [h2, hP, inner_sub_left, real_inner_smul_left, real_inner_comm]
    rw [h3]
    by_cases hz : e.symm x = 0
    · rw [hz]; simp
    · linarith [hA.2 _ hz]

/-- For a shift below the spectrum the inverse iteration reaches every positive target residual, from every start vector
and for both values of the flag. -/
theorem C68_inverse_terminates [FiniteDimensional ℝ E] {γ : ℝ} (hA : Above A γ) (hsol : TotalEigSolver A m b γ sol)
    {x : E} (hx : x ≠ 0) {ε : ℝ} (h0 : 0 < ε) (hε : ε < big) :
    ∃ N, ∀ maxIt, N ≤ maxIt → ∀ avoid o lam, InSync m b o → Shiftable m o →
      ∃ s, applyInverseIterationShift (realEnv A big) m b maxIt avoid γ ε sol o x lam = (s, .ok ()) ∧
        ApproxPair A ε s.x s.lam := by
  obtain ⟨S, hS, h1, h2⟩ := above_inverse hA
  have hSx : S x ≠ 0 := fun h => hx (by rw [← h1 x, h]; simp)
  obtain ⟨N, hN⟩ := resid_inv_tendsto hS h1 hSx h0
  refine ⟨N + 1, fun maxIt hm avoid o lam ho hs => ?_⟩
  have hsol' : ∀ o y x, InSync m b o → o.mu = γ → sol o y x = .ok (S x) := fun o y x ho hmu => by
    obtain ⟨z, hz, hz2⟩ := hsol o y x ho hmu
    rw [hz, ← hz2, h2]
  rcases inverse_run (big := big) avoid h1 ho hs hsol' hx lam hε maxIt with
    ⟨n, s, _, _, h3, _, h5, h6, h7, _⟩ | ⟨s, _, _, h3⟩
  · refine ⟨s, h3, ?_, h6, ?_⟩
    · rw [h5]; exact norm_unitVec (pow_ne hS hSx n).1
    · rw [h6, h5]; exact h7
  · exact absurd (hN N le_rfl) (not_le.mpr (h3 _ (by omega) hm))

/-- ... and it approximates the eigenvalue closest to the shift. -/
theorem C68_inverse_closest [FiniteDimensional ℝ E] {γ : ℝ} (hA : Above A γ) (hsol : TotalEigSolver A m b γ sol)
    {x v : E} (hx : x ≠ 0) {μ : ℝ} (hv : A v = μ • v) (hmin : ∀ z, μ * ⟪z, z⟫_ℝ ≤ ⟪z, A z⟫_ℝ) (hvx : ⟪v, x⟫_ℝ ≠ 0)
    {δ : ℝ} (hδ : 0 < δ) :
    ∃ ε₀, 0 < ε₀ ∧ ∀ ε, ε ≤ ε₀ → ε < big → ∀ maxIt avoid o lam s, InSync m b o → Shiftable m o →
      applyInverseIterationShift (realEnv A big) m b maxIt avoid γ ε sol o x lam = (s, .ok ()) → |s.lam - μ| ≤ δ := by
  obtain ⟨S, hS, h1, h2⟩ := above_inverse hA
  have hSx : S x ≠ 0 := fun h => hx (by rw [← h1 x, h]; simp)
  have hv0 : v ≠ 0 := fun h => hvx (by rw [h, inner_zero_left])
  have hc : 0 < μ - γ := by
    have := hA.2 v hv0
    rw [hv, real_inner_smul_right] at this
    have hp : 0 < ⟪v, v⟫_ℝ := real_inner_self_pos.mpr hv0
    nlinarith
  have hSv : S v = (μ - γ)⁻¹ • v := by
    have := h2 v
    rw [hv, ← sub_smul, map_smul] at this
    rw [← this, smul_smul, inv_mul_cancel₀ hc.ne', one_smul]
    rw [this]
  have htop : ∀ z, ⟪z, S z⟫_ℝ ≤ (μ - γ)⁻¹ * ⟪z, z⟫_ℝ := by
    intro z
    have e1 : ⟪z, S z⟫_ℝ = ⟪S z, A (S z)⟫_ℝ - γ * ⟪S z, S z⟫_ℝ := by
      have h := congrArg (fun t => ⟪t, S z⟫_ℝ) (h1 z)
      rw [← h, inner_sub_left, real_inner_smul_left, real_inner_comm]
    have e2 := hmin (S z)
    have e3 : (μ - γ) * ⟪S z, S z⟫_ℝ ≤ ⟪z, S z⟫_ℝ := by rw [e1]; linarith
    have e4 : ⟪z, S z⟫_ℝ ^ 2 ≤ ⟪z, z⟫_ℝ * ⟪S z, S z⟫_ℝ := by
      have := abs_real_inner_le_norm z (S z)
      rw [← sq_abs, real_inner_self_eq_norm_mul_norm, real_inner_self_eq_norm_mul_norm]
      calc |⟪z, S z⟫_ℝ| ^ 2 ≤ (‖z‖ * ‖S z‖) ^ 2 := pow_le_pow_left₀ (abs_nonneg _) this 2
        _ = _ := by ring
    have e5 := hS.2 z
    have e6 : (μ - γ) * ⟪z, S z⟫_ℝ ^ 2 ≤ ⟪z, z⟫_ℝ * ⟪z, S z⟫_ℝ := by
      calc (μ - γ) * ⟪z, S z⟫_ℝ ^ 2 ≤ (μ - γ) * (⟪z, z⟫_ℝ * ⟪S z, S z⟫_ℝ) := mul_le_mul_of_nonneg_left e4 hc.le
        _ = ⟪z, z⟫_ℝ * ((μ - γ) * ⟪S z, S z⟫_ℝ) := by ring
        _ ≤ _ := mul_le_mul_of_nonneg_left e3 real_inner_self_nonneg
    rw [inv_mul_eq_div, le_div_iff₀ hc]
    rcases e5.eq_or_lt with h | h
    · rw [← h, zero_mul]; exact real_inner_self_nonneg
    · have : ((μ - γ) * ⟪z, S z⟫_ℝ) * ⟪z, S z⟫_ℝ ≤ ⟪z, z⟫_ℝ * ⟪z, S z⟫_ℝ := by nlinarith
      have := le_of_mul_le_mul_right this h
      linarith
  have hlim := quo_tendsto_top hS hSx hSv htop hvx
  have hpow : ∀ j, (S ^ j) v = (μ - γ)⁻¹ ^ j • v := by
    intro j
    induction j with
    | zero => simp
    | succ j ih => rw [pow_apply, ih, map_smul, hSv, smul_smul, pow_succ]
  have t2 : Tendsto (fun k : Nat => 2 * k + 1) atTop atTop :=
    tendsto_atTop_mono (fun k => by dsimp only [id]; omega) tendsto_id
  have hlim2 : Tendsto (fun k : Nat => γ + (quo S x (2 * k + 1))⁻¹) atTop (𝓝 μ) := by
    have := ((hlim.comp t2).inv₀ (inv_ne_zero hc.ne')).const_add γ
    rw [inv_inv, add_sub_cancel] at this
    exact this
  obtain ⟨e, he, h⟩ := small_eps (res := fun n => residual A ((S ^ (n + 1)) x))
    (lm := fun n => γ + (quo S x (2 * n + 1))⁻¹) hδ (fun n => norm_nonneg _) (fun n hn => by
      rw [← (resid_inv hS h1 hSx n).2]
      refine resid_zero hA.1 hv (pow_ne hS hSx (n + 1)).1 ?_ hn
      rw [← sym_pow hS.1, hpow, real_inner_smul_left]
      exact mul_ne_zero (pow_ne_zero _ (inv_ne_zero hc.ne')) hvx) hlim2
  refine ⟨e, he, fun ε g1 g2 maxIt avoid o lam s ho hs hrun => ?_⟩
  have hsol' : ∀ o y x, InSync m b o → o.mu = γ → sol o y x = .ok (S x) := fun o y x ho hmu => by
    obtain ⟨z, hz, hz2⟩ := hsol o y x ho hmu
    rw [hz, ← hz2, h2]
  rcases inverse_run (big := big) avoid h1 ho hs hsol' hx lam g2 maxIt with
    ⟨n, s', n1, _, h3, _, h5, h6, h7, _⟩ | ⟨s', h3, _⟩
  · rw [hrun] at h3
    cases h3
    obtain ⟨n, rfl⟩ : ∃ i, n = i + 1 := ⟨n - 1, by omega⟩
    have := h ε n g1 h7
    rwa [← (resid_inv hS h1 hSx n).2, ← h5, ← h6] at this
  · rw [hrun] at h3; cases h3

/-! ### The iteration operator and the iteration matrix -/

/-- `getIterationOperator()` is `m - mu*I` for the shift of the moment of the call. -/
theorem C68_iteration_operator (o : PObj ℝ) (alpha : ℝ) (x y : E) :
    itApply (realEnv A big) o x = A x - o.mu • x ∧
    itApplyScaleAdd (realEnv A big) o alpha x y = y + alpha • (A x - o.mu • x) := by
  have h : ∀ z w : E, z + (1 : ℝ) • ((-1 * o.mu) • w) = z - o.mu • w := fun z w => by
    rw [one_smul, neg_one_mul, neg_smul, ← sub_eq_add_neg]
  exact ⟨h _ _, congrArg (fun t => y + alpha • t) (h _ _)⟩

/-- A call of one of the algorithms, with arbitrary arguments and an arbitrary solver, which may throw. -/
inductive PCall (K X : Type) where
  | power (maxIt : Nat) (eps : K) (x : X) (lam : K)
  | inverse (maxIt : Nat) (avoid : Bool) (eps : K) (sol : PObj K → X → X → Res X) (x : X) (lam : K)
  | inverseShift (maxIt : Nat) (avoid : Bool) (gamma eps : K) (sol : PObj K → X → X → Res X) (x : X) (lam : K)
  | rayleigh (maxIt : Nat) (avoid : Bool) (eps : K) (sol : PObj K → X → X → Res X) (x : X) (lam : K)
  | tlime (maxIt : Nat) (avoid : Bool) (gamma eta eps delta : K) (k : Nat) (sol : PObj K → X → X → Res X) (x : X)
      (lam : K)
  | matrix

/-- The object after a call, whether it returned or threw. -/
def PCall.run {K X : Type} [Field K] (env : PEnv K X) (m : SpMat (PBlock K)) (b : Nat) (o : PObj K) : PCall K X → PObj K
  | .power maxIt eps x lam => (applyPowerIteration env maxIt eps o x lam).1.obj
  | .inverse maxIt avoid eps sol x lam => (applyInverseIteration env m b maxIt avoid eps sol o x lam).1.obj
  | .inverseShift maxIt avoid g eps sol x lam =>
    (applyInverseIterationShift env m b maxIt avoid g eps sol o x lam).1.obj
  | .rayleigh maxIt avoid eps sol x lam => (applyRayleighQuotientIteration env m b maxIt avoid eps sol o x lam).1.obj
  | .tlime maxIt avoid g eta eps d k sol x lam =>
    (applyTLIMEIteration env m b maxIt avoid g eta eps d k sol o x lam).1.obj
  | .matrix => (getIterationMatrix m o).1

/-- If the iteration matrix is requested before anything else, then after every history of calls (even when solvers or
the algorithms threw) it is exactly `m - mu*I` for the shift `mu` of the iteration operator. -/
theorem C68_iteration_matrix {K X : Type} [Field K] {env : PEnv K X} (heq : ∀ a b, env.eq a b = true ↔ a = b)
    {m : SpMat (PBlock K)} {b : Nat} (hm : m.WF) (hsq : m.m = m.n) (hd : ∀ i < m.n, (m.row i).Has i)
    {o₀ : PObj K} (hc : powCtor b m = .ok o₀) (calls : List (PCall K X)) :
    let o := calls.foldl (fun o c => c.run env m b o) (getIterationMatrix m o₀).1
    ∃ C, (getIterationMatrix m o) = (o, C) ∧ IsShifted m b o.mu C := by
  intro o
  have hP := kept_sync (m := m) (b := b) heq
  have key : ∀ (l : List (PCall K X)) (o : PObj K), InSync m b o → Shiftable m o → o.itMat ≠ none →
      InSync m b (l.foldl (fun o c => c.run env m b o) o) ∧ (l.foldl (fun o c => c.run env m b o) o).itMat ≠ none := by
    have hQ : Kept env m b (fun o => (InSync m b o ∧ Shiftable m o) ∧ o.itMat ≠ none) :=
      ⟨fun _ _ h => h, fun o mu h => by
        obtain ⟨o', h1, h2, _, _, h5⟩ := updateShiftMu_spec heq (b := b) hm hsq hd mu h.1.1
        have := hP.shift o mu h.1
        refine ⟨this, ?_⟩
        rw [h1]
        exact fun h' => h.2 (h5.mp h')⟩
    intro l
    induction l with
    | nil => intro o h1 _ h3; exact ⟨h1, h3⟩
    | cons c l ih =>
      intro o h1 h2 h3
      have hc : (InSync m b (c.run env m b o) ∧ Shiftable m (c.run env m b o)) ∧ (c.run env m b o).itMat ≠ none := by
        cases c with
        | power => exact power_obj hQ _ _ ⟨⟨h1, h2⟩, h3⟩ _ _
        | inverse => exact inverse_obj hQ _ _ _ _ _ ⟨⟨h1, h2⟩, h3⟩ _ _
        | inverseShift => exact inverse_obj hQ _ _ _ _ _ ⟨⟨h1, h2⟩, h3⟩ _ _
        | rayleigh => exact rqi_obj hQ _ _ _ _ ⟨⟨h1, h2⟩, h3⟩ _ _
        | tlime => exact tlime_obj hQ _ _ _ _ _ _ _ _ ⟨⟨h1, h2⟩, h3⟩ _ _
        | matrix =>
          have : PCall.run env m b o (.matrix : PCall K X) = o := by
            rcases h : o.itMat with _ | C
            · exact absurd h h3
            · simp [PCall.run, getIterationMatrix, h]
          rw [this]
          exact ⟨⟨h1, h2⟩, h3⟩
      exact ih _ hc.1.1 hc.1.2 hc.2
  have h0 : o₀ = ⟨0, none, 0⟩ := by
    unfold powCtor at hc
    split at hc
    · cases hc
    · cases hc; rfl
  subst h0
  obtain ⟨h1, h2⟩ := key calls (getIterationMatrix m ⟨0, none, 0⟩).1
    (fun C h => by
      have : C = m := by
        simp [getIterationMatrix] at h
        exact h.symm
      subst this
      exact isShifted_self _ b)
    ⟨hm, hsq, Or.inr hd⟩ (by simp [getIterationMatrix])
  rcases h : o.itMat with _ | C
  · exact absurd h h2
  · exact ⟨C, by simp [getIterationMatrix, h], h1 C h⟩

/-- If it is requested only after a shifted run, it is the unshifted matrix, and running again with the same shift does
not repair it: the solver built on it works with the wrong matrix. -/
theorem C68_stale_matrix {K X : Type} [Field K] {env : PEnv K X} (heq : ∀ a b, env.eq a b = true ↔ a = b)
    {m : SpMat (PBlock K)} {b : Nat} (hb : 0 < b) {o : PObj K} (h0 : o.itMat = none) {γ : K} (hγ : γ ≠ 0)
    (hm : m.WF) (hn : 0 < m.n) (hd : (m.row 0).Has 0) :
    let o₁ := (getIterationMatrix m (updateShiftMu env m b γ o).1).1
    updateShiftMu env m b γ o₁ = (o₁, .ok ()) ∧ o₁.mu = γ ∧ o₁.itMat = some m ∧ ¬ IsShifted m b γ m := by
  intro o₁
  have h1 : o₁.mu = γ ∧ o₁.itMat = some m := by
    have : (updateShiftMu env m b γ o).1.mu = γ ∧ (updateShiftMu env m b γ o).1.itMat = none := by
      unfold updateShiftMu
      by_cases h : γ = o.mu
      · rw [if_pos ((heq _ _).mpr h)]; exact ⟨h.symm, h0⟩
      · rw [if_neg (fun h' => h ((heq _ _).mp h')), h0]; exact ⟨rfl, rfl⟩
    change (getIterationMatrix m (updateShiftMu env m b γ o).1).1.mu = γ ∧
      (getIterationMatrix m (updateShiftMu env m b γ o).1).1.itMat = some m
    unfold getIterationMatrix
    rw [this.2]
    exact ⟨this.1, rfl⟩
  refine ⟨?_, h1.1, h1.2, ?_⟩
  · unfold updateShiftMu
    rw [if_pos ((heq _ _).mpr h1.1.symm)]
  · intro h
    obtain ⟨e, he⟩ := hd
    obtain ⟨e', he', hv⟩ := (h.2.2 0 hn).2 0 e he
    have : e' = e := (hm 0 hn).1.unique he' he
    have h2 := hv 0 hb 0 hb
    rw [if_pos ⟨rfl, rfl⟩, this] at h2
    exact hγ (by simpa using h2.symm)

/-- A missing diagonal block makes the shift of the iteration matrix throw, with the new shift already stored: repeating
the call succeeds and leaves the matrix unshifted at that place. -/
theorem C68_missing_diagonal {K X : Type} [Field K] {env : PEnv K X} (heq : ∀ a b, env.eq a b = true ↔ a = b)
    {m : SpMat (PBlock K)} {b : Nat} (hb : 0 < b) {o : PObj K} (h0 : o.itMat = some m) {γ : K} (hγ : γ ≠ o.mu)
    (hm : m.WF) (hn : 0 < m.n) (hsq : m.m = m.n) (hd : ¬ (m.row 0).Has 0) :
    ∃ o₁, updateShiftMu env m b γ o = (o₁, .throw .istlError) ∧ o₁.mu = γ ∧ o₁.itMat = some m ∧
      updateShiftMu env m b γ o₁ = (o₁, .ok ()) := by
  refine ⟨⟨γ, some m, o.nIt⟩, ?_, rfl, rfl, ?_⟩
  · unfold updateShiftMu
    rw [if_neg (fun h' => hγ ((heq _ _).mp h')), h0]
    have hr : List.range (m.m * b) = 0 :: (List.range (m.m * b - 1)).map Nat.succ := by
      obtain ⟨k, hk⟩ : ∃ k, m.m * b = k + 1 := ⟨m.m * b - 1, by have := Nat.mul_pos (hsq ▸ hn) hb; omega⟩
      rw [hk, List.range_succ_eq_map]; rfl
    have he : shiftEntry m b γ 0 m = .throw .istlError := by
      unfold shiftEntry
      rw [Nat.zero_div, Row.get_of_not_mem _ (hm 0 hn).1 (fun c hc => hd ⟨c, hc⟩)]
      rfl
    dsimp only
    rw [hr, shiftLoop, he]
  · unfold updateShiftMu
    rw [if_pos ((heq _ _).mpr rfl)]

/-! ### The template flag, the value left in `lambda`, NaN -/

/-- The flag `avoidLinSolverCrime` has no effect on the unshifted `applyInverseIteration`. -/
theorem C68_flag_ignored {K X : Type} [Field K] (env : PEnv K X) (m : SpMat (PBlock K)) (b maxIt : Nat) (eps : K)
    (sol : PObj K → X → X → Res X) (o : PObj K) (x : X) (lam : K) :
    applyInverseIteration env m b maxIt true eps sol o x lam = applyInverseIteration env m b maxIt false eps sol o x lam ∧
    applyInverseIteration env m b maxIt true eps sol o x lam =
      applyInverseIterationShift env m b maxIt false 0 eps sol o x lam := ⟨rfl, rfl⟩

/-- `lambda` is a pure output of the power and of the inverse iteration, and of TLIME when `m >= 2`: the value the caller
left in it has no influence on a normal return. -/
theorem C68_lambda_output {K X : Type} [Field K] {env : PEnv K X} {m : SpMat (PBlock K)} {b maxIt : Nat} {eps : K}
    (hg : env.gt env.maxv eps = true) (avoid : Bool) (γ eta δ : K) {k : Nat} (hk : 2 ≤ k)
    (sol : PObj K → X → X → Res X) (o : PObj K) (x : X) (lam lam' : K) :
    ((applyPowerIteration env maxIt eps o x lam).2 = .ok () →
      applyPowerIteration env maxIt eps o x lam' = applyPowerIteration env maxIt eps o x lam) ∧
    ((applyInverseIterationShift env m b maxIt avoid γ eps sol o x lam).2 = .ok () →
      applyInverseIterationShift env m b maxIt avoid γ eps sol o x lam' =
        applyInverseIterationShift env m b maxIt avoid γ eps sol o x lam) ∧
    ((applyTLIMEIteration env m b maxIt avoid γ eta eps δ k sol o x lam).2 = .ok () →
      applyTLIMEIteration env m b maxIt avoid γ eta eps δ k sol o x lam' =
        applyTLIMEIteration env m b maxIt avoid γ eta eps δ k sol o x lam) := by
  refine ⟨fun h => ?_, fun h => ?_, fun h => ?_⟩
  · exact powLoop_first hg rfl (fun s' hs => hs) h
  · unfold applyInverseIterationShift at h ⊢
    rcases hu : updateShiftMu env m b γ o with ⟨o', r⟩
    rw [hu] at h
    cases r with
    | ok u =>
      refine powLoop_first hg rfl (fun s' hs => ?_) h
      obtain ⟨s1, e1, e2⟩ := andThen_ok hs
      obtain ⟨z, e3, rfl⟩ := solveWith_ok e1
      have e3' : sol (powStart env o' x lam').bump.obj (powStart env o' x lam').bump.y (powStart env o' x lam').bump.x
        = .ok z := e3
      unfold invStep solveWith
      rw [e3']
      rw [← e2]
      cases avoid <;> rfl
    | throw e => cases h
    | ub => cases h
  · refine powLoop_first hg rfl (fun s' hs => ?_) h
    obtain ⟨s1, e1, e2⟩ := andThen_ok hs
    obtain ⟨s2, e3, e4⟩ := andThen_ok e2
    obtain ⟨z, e5, rfl⟩ := solveWith_ok e3
    have hsh : ∃ o', updateShiftMu env m b γ (powStart env o x lam).bump.obj = (o', .ok ()) ∧
        s1 = { (powStart env o x lam).bump with obj := o' } := by
      have hw : withShift env m b γ (powStart env o x lam).bump = (s1, .ok ()) := e1
      unfold withShift at hw
      rcases hu : updateShiftMu env m b γ (powStart env o x lam).bump.obj with ⟨o', r⟩
      rw [hu] at hw
      cases hw
      exact ⟨o', rfl, rfl⟩
    obtain ⟨o', hu, rfl⟩ := hsh
    have hu' : updateShiftMu env m b γ (powStart env o x lam').bump.obj = (o', .ok ()) := hu
    have hnIt : o'.nIt = 1 := by
      have : o'.nIt = (powStart env o x lam).bump.obj.nIt := by
        have h1 := congrArg Prod.fst hu
        unfold updateShiftMu at h1
        split_ifs at h1
        · rw [← show _ = o' from h1]
        · revert h1
          split
          · intro h1; rw [← show _ = o' from h1]
          · intro h1; rw [← show _ = o' from h1]
      rw [this]; rfl
    have e5' : sol o' (powStart env o x lam').bump.y (powStart env o x lam').bump.x = .ok z := e5
    have hw' : withShift env m b (if (powStart env o x lam').bump.doRQI = true then (powStart env o x lam').bump.lam else γ)
        (powStart env o x lam').bump = ({ (powStart env o x lam').bump with obj := o' }, .ok ()) := by
      change withShift env m b γ (powStart env o x lam').bump = _
      unfold withShift
      rw [hu']
    unfold tlimeStep
    rw [hw']
    simp only [andThen]
    unfold solveWith
    dsimp only
    rw [e5']
    dsimp only
    dsimp only at e4
    refine Eq.trans ?_ e4
    have hnums : tlimeNums env avoid γ { (powStart env o x lam').bump with y := z, obj := o' } =
        tlimeNums env avoid γ { (powStart env o x lam).bump with y := z, obj := o' } := by
      unfold tlimeNums
      cases avoid <;> rfl
    rw [hnums]
    refine congrArg (fun s => (s, Res.ok ())) ?_
    generalize tlimeNums env avoid γ { (powStart env o x lam).bump with y := z, obj := o' } = p
    have hacc : accept env (p.1, p.2.2) { (powStart env o x lam').bump with y := z, obj := o' } =
        accept env (p.1, p.2.2) { (powStart env o x lam).bump with y := z, obj := o' } := rfl
    rw [hacc]
    unfold tlimeSwitch
    dsimp only
    have hno : ∀ s : PState K X, s.obj.nIt = 1 → decide (k ≤ s.obj.nIt) = false := fun s hs => by
      rw [hs]; exact decide_eq_false (by omega)
    split_ifs <;> first | rfl | (exfalso; simp_all [accept]; done) | (exfalso; simp_all [accept]; omega)

/-- Scalars with NaN, vectors of length one, the matrix `(a)`. -/
def nanPEnv (a : ℚ) (big : ℚ) : PEnv Fl Fl where
  mv x := .num a * x
  smul c x := x * c
  axpy c x y := y + c * x
  dot x y := x * y
  norm x := match x with | .num q => .num (if q < 0 then -q else q) | .nan => .nan
  gt x y := Fl.blt y x
  ge x y := match x, y with | .num p, .num q => decide (q ≤ p) | _, _ => false
  eq x y := match x, y with | .num p, .num q => decide (p = q) | _, _ => false
  abs x := match x with | .num q => .num (if q < 0 then -q else q) | .nan => .nan
  sqrt x := x
  maxv := .num big

/-- A residual that is not a number ends the loop as a normal return: with a zero start vector, or a zero matrix, the
call returns after one iteration with `lambda` not a number, whatever `epsilon`. -/
theorem C68_nan (a big : ℚ) {ε : ℚ} (hε : ε < big) {maxIt : Nat} (h1 : 1 ≤ maxIt) (o : PObj Fl) (x lam : Fl)
    (hx : x = .num 0 ∨ (a = 0 ∧ x = .num 1)) :
    ∃ s, applyPowerIteration (nanPEnv a big) maxIt (.num ε) o x lam = (s, .ok ()) ∧ s.lam = .nan ∧ s.x = .nan ∧
      getIterationCount s.obj = .ok 1 := by
  obtain ⟨n, rfl⟩ : ∃ n, maxIt = n + 1 := ⟨maxIt - 1, by omega⟩
  have hg : Fl.blt (.num ε) (.num big) = true := decide_eq_true hε
  have hend : ∀ (fuel : Nat) (s : PState Fl Fl), s.r = .nan →
      powLoop (nanPEnv a big) (.num ε) (powStep (nanPEnv a big)) fuel s = (s, .ok ()) := by
    intro fuel s hs
    cases fuel <;> rw [powLoop, hs] <;> rfl
  have key : ∀ y : Fl, (1 / (nanPEnv a big).norm y = .nan) →
      ∀ s : PState Fl Fl, s.y = y → (powStep (nanPEnv a big) s).1.r = .nan ∧
        (powStep (nanPEnv a big) s).1.lam = .nan ∧ (powStep (nanPEnv a big) s).1.x = .nan ∧
        (powStep (nanPEnv a big) s).1.obj = s.obj ∧ (powStep (nanPEnv a big) s).2 = .ok () := by
    intro y hy s hs
    have hsm : y * Fl.nan = .nan := by cases y <;> rfl
    unfold powStep
    rw [hs, hy]
    change (nanPEnv a big).norm _ = _ ∧ _
    simp only [nanPEnv, hsm]
    exact ⟨by trivial, by trivial, by trivial, by trivial, by trivial⟩
  let s0 := { powStart (nanPEnv a big) o x lam with y := (nanPEnv a big).mv (powStart (nanPEnv a big) o x lam).x }
  have hy : 1 / (nanPEnv a big).norm s0.y = .nan := by
    rcases hx with rfl | ⟨rfl, rfl⟩
    · rfl
    · change (1 : Fl) / (nanPEnv 0 big).norm (Fl.num 0 * (Fl.num 1 * (Fl.num 1 / Fl.num (if (1 : ℚ) < 0 then -1 else 1)))) = .nan
      have : (Fl.num 0 * (Fl.num 1 * (Fl.num 1 / Fl.num (if (1 : ℚ) < 0 then -1 else 1)))) = Fl.num 0 := by decide +kernel
      rw [this]
      rfl
  obtain ⟨k1, k2, k3, k4, k5⟩ := key s0.y hy s0.bump rfl
  refine ⟨(powStep (nanPEnv a big) s0.bump).1, ?_, k2, k3, ?_⟩
  · change powLoop (nanPEnv a big) (.num ε) (powStep (nanPEnv a big)) (n + 1) s0 = _
    rw [powLoop]
    have hr : (nanPEnv a big).gt s0.r (.num ε) = true := hg
    rw [if_pos hr, show powStep (nanPEnv a big) s0.bump = ((powStep (nanPEnv a big) s0.bump).1, .ok ()) from
      Prod.ext rfl k5]
    exact hend _ _ k1
  · rw [k4]; rfl

/-! ### `extrnl == true` -/

/-- The converse of the interval test is not guaranteed: started at an exact eigenvector with eigenvalue `mu` outside
the interval, TLIME returns `lambda = mu` and `extrnl == true` whatever other eigenvalues lie in the interval. -/
theorem C68_tlime_external {o : PObj ℝ} (ho : InSync m b o) (hs : Shiftable m o) {γ η ε δ : ℝ} {k : Nat}
    (hsol : TotalEigSolver A m b γ sol) (hinj : ∀ z, A z = γ • z → z = 0) (avoid : Bool) {v : E} (hv : ‖v‖ = 1) {μ : ℝ}
    (hAv : A v = μ • v) (hμ : η ≤ |μ - γ|) (h0 : 0 ≤ ε) (hε : ε < big) (lam : ℝ) {maxIt : Nat} (h1 : 1 ≤ maxIt) :
    ∃ s, applyTLIMEIteration (realEnv A big) m b maxIt avoid γ η ε δ k sol o v lam = (s, .ok ()) ∧
      s.lam = μ ∧ s.extrnl = true ∧ s.obj.nIt = 1 := by
  obtain ⟨n, rfl⟩ : ∃ n, maxIt = n + 1 := ⟨maxIt - 1, by omega⟩
  have hv0 : v ≠ 0 := fun h => by rw [h, norm_zero] at hv; exact zero_ne_one hv
  have hne : μ - γ ≠ 0 := fun h => hv0 (hinj v (by rw [hAv, sub_eq_zero.mp h]))
  let s0 := powStart (realEnv A big) o v lam
  have hx0 : s0.x = v := by
    change (1 / ‖v‖) • v = v
    rw [hv, div_one, one_smul]
  obtain ⟨o', e1, e2, e3, e4, e5⟩ := withShift_ok (A := A) (big := big) (b := b) (s := s0.bump) γ ho hs
  obtain ⟨z, hz, hAz⟩ := hsol o' s0.y s0.x e2 e3
  rw [hx0] at hAz
  have hzv : z = (μ - γ)⁻¹ • v := by
    have hd : A (z - (μ - γ)⁻¹ • v) = γ • (z - (μ - γ)⁻¹ • v) := by
      rw [map_sub, map_smul, hAv, smul_sub, smul_smul, smul_smul]
      have : A z = v + γ • z := by rw [← hAz]; abel
      rw [this]
      have h2 : v = ((μ - γ)⁻¹ * (μ - γ)) • v := by rw [inv_mul_cancel₀ hne, one_smul]
      have h3 : v - ((μ - γ)⁻¹ * μ) • v = -(γ * (μ - γ)⁻¹) • v := by
        conv_lhs => rw [h2]
        rw [smul_smul, ← sub_smul]
        congr 1
        field_simp
        ring
      calc v + γ • z - ((μ - γ)⁻¹ * μ) • v = γ • z + (v - ((μ - γ)⁻¹ * μ) • v) := by abel
        _ = _ := by rw [h3, neg_smul, ← sub_eq_add_neg]
    exact sub_eq_zero.mp (hinj _ hd)
  have hz0 : z ≠ 0 := by rw [hzv]; exact smul_ne_zero (inv_ne_zero hne) hv0
  have hAz2 : A z = μ • z := by rw [hzv, map_smul, hAv, smul_comm]
  have hu : A (unitVec z) = μ • unitVec z := by rw [unitVec, map_smul, hAz2, smul_comm]
  have hun := norm_unitVec hz0
  have huu : ⟪unitVec z, unitVec z⟫_ℝ = 1 := by rw [real_inner_self_eq_norm_mul_norm, hun, one_mul]
  have hp1 : (pairOf A z).1 = μ := by
    change ⟪unitVec z, A (unitVec z)⟫_ℝ = μ
    rw [hu, real_inner_smul_right, huu, mul_one]
  have hp2 : (pairOf A z).2 = 0 := by
    have : (pairOf A z).2 = ‖A (unitVec z) - (pairOf A z).1 • unitVec z‖ := rfl
    rw [this, hp1, hu, sub_self, norm_zero]
  obtain ⟨n1, n2, n3⟩ := tlime_nums (A := A) (big := big) (γ := γ) (mu := γ) avoid
    { s0.bump with y := z, obj := o' } rfl (by rw [hAz]; exact hx0.symm) (by rw [← hv, ← hx0]; rfl) hz0
  have n3 := n3 rfl
  have hq : ‖A (unitVec z) - γ • unitVec z‖ = |μ - γ| := by
    rw [hu, ← sub_smul, norm_smul, hun, mul_one, Real.norm_eq_abs]
  have hstep : ∃ s1, tlimeStep (realEnv A big) m b avoid γ η δ k sol s0.bump = (s1, .ok ()) ∧ s1.lam = μ ∧ s1.r = 0 ∧
      s1.extrnl = true ∧ s1.obj.nIt = 1 := by
    generalize hN : tlimeNums (realEnv A big) avoid γ { s0.bump with y := z, obj := o' } = N at n1 n2 n3
    obtain ⟨N1, N2, N3⟩ := N
    dsimp only at n1 n2 n3
    rw [hp1] at n1
    rw [hp2] at n2
    refine ⟨tlimeSwitch (realEnv A big) γ η δ k N2 lam
      (accept (realEnv A big) (N1, N3) { s0.bump with y := z, obj := o' }), ?_, ?_, ?_, ?_, ?_⟩
    · unfold tlimeStep
      have e1' : withShift (realEnv A big) m b (if s0.bump.doRQI = true then s0.bump.lam else γ) s0.bump =
        ({ s0.bump with obj := o' }, .ok ()) := e1
      rw [e1']
      simp only [andThen]
      unfold solveWith
      dsimp only
      have hz' : sol o' s0.bump.y s0.bump.x = .ok z := hz
      rw [hz']
      dsimp only
      rw [hN]
      rfl
    · rw [(tlimeSwitch_same _ _ _ _ _ _ _ _).2.1]; exact n1
    · rw [(tlimeSwitch_same _ _ _ _ _ _ _ _).2.2.1]; exact n2
    · have hnot : ¬ N2 < η := by rw [n3, hq]; exact not_lt.mpr hμ
      by_contra h
      have hf : (tlimeSwitch (realEnv A big) γ η δ k N2 lam
        (accept (realEnv A big) (N1, N3) { s0.bump with y := z, obj := o' })).extrnl = false := by simpa using h
      rcases (tlimeSwitch_flags (A := A) (big := big) γ η δ k N2 lam
        (accept (realEnv A big) (N1, N3) { s0.bump with y := z, obj := o' })
        (fun _ h => absurd h hnot)).2 hf with h | h
      · cases h
      · exact hnot h.2
    · rw [(tlimeSwitch_same _ _ _ _ _ _ _ _).2.2.2]
      change o'.nIt = 1
      rw [e4]; rfl
  obtain ⟨s1, g1, g2, g3, g4, g5⟩ := hstep
  refine ⟨s1, ?_, g2, g4, g5⟩
  change powLoop (realEnv A big) ε _ (n + 1) s0 = _
  rw [powLoop, if_pos (gt_true.mpr (show ε < s0.r from hε)), g1]
  dsimp only
  have hend : (realEnv A big).gt s1.r ε = false := gt_false.mpr (by rw [g3]; exact h0)
  cases n <;> rw [powLoop, hend] <;> rfl

/-! ### The hypotheses can be met -/

/-- The matrix `diag(p,q)` on the plane (the complex numbers as a real inner product space). -/
noncomputable def planeDiag (p q : ℝ) : ℂ →ₗ[ℝ] ℂ where
  toFun z := ⟨p * z.re, q * z.im⟩
  map_add' x y := by apply Complex.ext <;> simp [mul_add]
  map_smul' c x := by apply Complex.ext <;> simp [mul_left_comm]

theorem plane_inner (x y : ℂ) : ⟪x, y⟫_ℝ = x.re * y.re + x.im * y.im := by
  rw [Complex.inner]; simp [mul_comm]

theorem planeDiag_sym (p q : ℝ) : SymMap (planeDiag p q) := by
  intro x y
  rw [plane_inner, plane_inner]
  simp only [planeDiag, LinearMap.coe_mk, AddHom.coe_mk]
  ring

/-- The matrix `diag(1,3)` in scalar blocks. -/
def diag13 : SpMat (PBlock ℝ) := ⟨2, 2, fun i => [(i, fun _ _ => if i = 0 then 1 else 3)]⟩

/-- The exact solver for `diag(p,q)` that reads the shift of the iteration operator. -/
noncomputable def planeSol (p q : ℝ) : PObj ℝ → ℂ → ℂ → Res ℂ := fun o _ x =>
  .ok (planeDiag (p - o.mu)⁻¹ (q - o.mu)⁻¹ x)

theorem planeSol_total {p q γ : ℝ} (h1 : p ≠ γ) (h2 : q ≠ γ) (m : SpMat (PBlock ℝ)) (b : Nat) :
    TotalEigSolver (planeDiag p q) m b γ (planeSol p q) := by
  rintro o y x - rfl
  refine ⟨_, rfl, ?_⟩
  have e1 : p - o.mu ≠ 0 := sub_ne_zero.mpr h1
  have e2 : q - o.mu ≠ 0 := sub_ne_zero.mpr h2
  apply Complex.ext <;> simp [planeDiag] <;> field_simp

/-- A solver exact at every shift where it returns: it refuses singular systems. -/
noncomputable def planeSafe (p q : ℝ) : PObj ℝ → ℂ → ℂ → Res ℂ := fun o _ x => by
  classical
  exact if o.mu = p ∨ o.mu = q then .throw .istlError else .ok (planeDiag (p - o.mu)⁻¹ (q - o.mu)⁻¹ x)

theorem planeSafe_exact (p q : ℝ) (m : SpMat (PBlock ℝ)) (b : Nat) :
    ExactEigSolver (planeDiag p q) m b (planeSafe p q) := by
  intro o y x z ho h
  unfold planeSafe at h
  split at h
  · cases h
  · rename_i hn
    push Not at hn
    obtain ⟨w, hw, hw2⟩ := planeSol_total (γ := o.mu) (Ne.symm hn.1) (Ne.symm hn.2) m b o y x ho rfl
    rw [planeSol] at hw
    rw [hw] at h
    cases h
    exact hw2

example : PsdMap (planeDiag 1 3) ∧ planeDiag 1 3 ⟨1, 1⟩ ≠ 0 ∧ (∀ z, ⟪z, planeDiag 1 3 z⟫_ℝ ≤ 3 * ⟪z, z⟫_ℝ) ∧
    planeDiag 1 3 Complex.I = (3 : ℝ) • Complex.I ∧ ⟪Complex.I, (⟨1, 1⟩ : ℂ)⟫_ℝ ≠ 0 := by
  refine ⟨⟨planeDiag_sym _ _, fun x => ?_⟩, ?_, fun z => ?_, ?_, ?_⟩
  · rw [plane_inner]; simp only [planeDiag, LinearMap.coe_mk, AddHom.coe_mk]; nlinarith [sq_nonneg x.re, sq_nonneg x.im]
  · intro h; have := congrArg Complex.re h; simp [planeDiag] at this
  · rw [plane_inner, plane_inner]; simp only [planeDiag, LinearMap.coe_mk, AddHom.coe_mk]; nlinarith [sq_nonneg z.re]
  · apply Complex.ext <;> simp [planeDiag]
  · rw [plane_inner]; simp

/-- The power iteration on `diag(1,3)` from `(1,1)` returns, for every target. -/
example {ε : ℝ} (h0 : 0 < ε) (hε : ε < 1000) : ∃ N, ∀ maxIt, N ≤ maxIt → ∀ o lam, ∃ s,
    applyPowerIteration (realEnv (planeDiag 1 3) 1000) maxIt ε o ⟨1, 1⟩ lam = (s, .ok ()) ∧
      ApproxPair (planeDiag 1 3) ε s.x s.lam := by
  refine C68_power_terminates ⟨planeDiag_sym _ _, fun x => ?_⟩ ?_ h0 hε
  · rw [plane_inner]; simp only [planeDiag, LinearMap.coe_mk, AddHom.coe_mk]; nlinarith [sq_nonneg x.re, sq_nonneg x.im]
  · intro h; have := congrArg Complex.re h; simp [planeDiag] at this

theorem above13 : Above (planeDiag 1 3) 0 := by
  refine ⟨planeDiag_sym _ _, fun z hz => ?_⟩
  have h : 0 < z.re * z.re + z.im * z.im := by
    rw [← plane_inner]; exact real_inner_self_pos.mpr hz
  rw [plane_inner, plane_inner]
  simp only [planeDiag, LinearMap.coe_mk, AddHom.coe_mk, zero_mul]
  nlinarith [mul_self_nonneg z.im]

/-- The inverse iteration on `diag(1,3)` with the solver above returns. -/
example {ε : ℝ} (h0 : 0 < ε) (hε : ε < 1000) : ∃ N, ∀ maxIt, N ≤ maxIt → ∃ s,
    applyInverseIterationShift (realEnv (planeDiag 1 3) 1000) diag13 1 maxIt false 0 ε (planeSol 1 3) ⟨0, none, 0⟩
      ⟨1, 1⟩ 0 = (s, .ok ()) := by
  obtain ⟨N, hN⟩ := C68_inverse_terminates (big := 1000) above13 (planeSol_total (p := 1) (q := 3) (by norm_num) (by norm_num)
    diag13 1) (x := ⟨1, 1⟩) (fun h => by have := congrArg Complex.re h; simp at this) h0 hε
  refine ⟨N, fun maxIt hm => ?_⟩
  obtain ⟨s, hs, _⟩ := hN maxIt hm false ⟨0, none, 0⟩ 0 (fun C h => by cases h)
    ⟨fun i hi => ⟨by simp [diag13, Row.Asc], fun e he => by simp [diag13] at he hi ⊢; rw [he]; exact hi⟩, rfl, Or.inl rfl⟩
  exact ⟨s, hs⟩

/-- Two balanced eigenvalues of opposite sign: no iteration limit helps. -/
example (maxIt : Nat) (o : PObj ℝ) (lam : ℝ) : ∃ s,
    applyPowerIteration (realEnv (planeDiag 1 (-1)) 1000) maxIt (1 / 2) o
      ⟨Real.sqrt (1 / 2), Real.sqrt (1 / 2)⟩ lam = (s, .throw .istlError) := by
  have hh : Real.sqrt (1 / 2) * Real.sqrt (1 / 2) = 1 / 2 := Real.mul_self_sqrt (by norm_num)
  refine C68_power_oscillates (planeDiag_sym _ _) (fun z => ?_) ?_ ?_ (by norm_num) (by norm_num) maxIt o lam
  · apply Complex.ext <;> simp [planeDiag]
  · have h1 : ‖(⟨Real.sqrt (1 / 2), Real.sqrt (1 / 2)⟩ : ℂ)‖ * ‖(⟨Real.sqrt (1 / 2), Real.sqrt (1 / 2)⟩ : ℂ)‖ = 1 := by
      rw [← real_inner_self_eq_norm_mul_norm, plane_inner, hh]; norm_num
    nlinarith [norm_nonneg (⟨Real.sqrt (1 / 2), Real.sqrt (1 / 2)⟩ : ℂ)]
  · rw [plane_inner]; simp only [planeDiag, LinearMap.coe_mk, AddHom.coe_mk]; linarith

/-- `diag(0,1)`, interval `(-2/5, 3/5)` which contains the eigenvalue `0`, start vector `(0,1)`: TLIME answers
`lambda = 1`, `extrnl == true`. -/
example : IsEigenvalue (planeDiag 0 1) 0 ∧ ∃ s,
    applyTLIMEIteration (realEnv (planeDiag 0 1) 1000) diag13 1 10 false (1 / 10) (1 / 2) (1 / 100) (1 / 100) 2
      (planeSol 0 1) ⟨0, none, 0⟩ Complex.I 0 = (s, .ok ()) ∧ s.lam = 1 ∧ s.extrnl = true ∧ s.obj.nIt = 1 := by
  refine ⟨⟨1, one_ne_zero, by apply Complex.ext <;> simp [planeDiag]⟩, ?_⟩
  refine C68_tlime_external (fun C h => by cases h)
    ⟨fun i hi => ⟨by simp [diag13, Row.Asc], fun e he => by simp [diag13] at he hi ⊢; rw [he]; exact hi⟩, rfl, Or.inl rfl⟩
    (planeSol_total (by norm_num) (by norm_num) _ _) (fun z hz => ?_) false (by simp) ?_ ?_ (by norm_num) (by norm_num) 0
    (by norm_num)
  · have h1 := congrArg Complex.re hz
    have h2 := congrArg Complex.im hz
    simp [planeDiag] at h1 h2
    apply Complex.ext
    · exact h1
    · change z.im = 0; linarith
  · apply Complex.ext <;> simp [planeDiag]
  · rw [abs_of_pos] <;> norm_num

/-- `diag(1,3)` has every diagonal block. -/
example : diag13.WF ∧ diag13.m = diag13.n ∧ (∀ i < diag13.n, (diag13.row i).Has i) ∧
    powCtor 1 diag13 = .ok ⟨0, none, 0⟩ :=
  ⟨fun i hi => ⟨by simp [diag13, Row.Asc], fun e he => by simp [diag13] at he hi ⊢; rw [he]; exact hi⟩, rfl,
    fun i _ => ⟨_, List.mem_singleton.mpr rfl⟩, by simp [powCtor, diag13]⟩

end Istl

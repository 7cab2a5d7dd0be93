import Verif.Spec.Converge
import Verif.Lemmas.FrameFull
import Mathlib.Topology.Algebra.Module.FiniteDimension
import Mathlib.Analysis.Normed.Module.FiniteDimension

/-! # Contraction from strict energy reduction, and runs of the solver frame -/

namespace Istl
namespace Solver

/-- On a finite dimensional space a positive definite form dominates a multiple of every form: `f x x ≥ c g x x`. -/
theorem form_bound_pi {d : Nat} (f g : LinearMap.BilinForm ℝ (Fin d → ℝ)) (hf : ∀ x, x ≠ 0 → 0 < f x x) :
    ∃ c : ℝ, 0 < c ∧ ∀ x, c * g x x ≤ f x x := by
  have hcont : ∀ h : LinearMap.BilinForm ℝ (Fin d → ℝ), Continuous fun x => h x x := by
    intro h
    have e : (fun x : Fin d → ℝ => h x x) = fun x => ∑ i, ∑ j, x i * x j * h (Pi.single i 1) (Pi.single j 1) := by
      funext x
      conv_lhs => rw [pi_eq_sum_univ' x]
      simp only [map_sum, LinearMap.sum_apply, map_smul, LinearMap.smul_apply, smul_eq_mul]
      rw [Finset.sum_comm]
      refine Finset.sum_congr rfl fun i _ => ?_
      rw [Finset.mul_sum]
      exact Finset.sum_congr rfl fun j _ => by ring
    rw [e]
    fun_prop
  by_cases hd : ∃ x : Fin d → ℝ, x ≠ 0
  swap
  · push Not at hd
    exact ⟨1, one_pos, fun x => by rw [hd x]; simp⟩
  obtain ⟨x0, hx0⟩ := hd
  have hS : IsCompact (Metric.sphere (0 : Fin d → ℝ) 1) := isCompact_sphere _ _
  have hne : (Metric.sphere (0 : Fin d → ℝ) 1).Nonempty := by
    refine ⟨‖x0‖⁻¹ • x0, ?_⟩
    rw [mem_sphere_zero_iff_norm, norm_smul, norm_inv, norm_norm, inv_mul_cancel₀ (norm_ne_zero_iff.2 hx0)]
  obtain ⟨u, hu, hmin⟩ := hS.exists_isMinOn hne (hcont f).continuousOn
  obtain ⟨v, hv, hmax⟩ := hS.exists_isMaxOn hne (hcont g).continuousOn
  have hu0 : u ≠ 0 := by
    intro h; rw [h] at hu; simp at hu
  have hm := hf u hu0
  set m := f u u
  set M := max 1 (g v v) with hM
  have hM1 : 1 ≤ M := le_max_left _ _
  refine ⟨m / M, by positivity, ?_⟩
  intro x
  by_cases hx : x = 0
  · rw [hx]; simp
  have hn : 0 < ‖x‖ := norm_pos_iff.2 hx
  have hy : ‖x‖⁻¹ • x ∈ Metric.sphere (0 : Fin d → ℝ) 1 := by
    rw [mem_sphere_zero_iff_norm, norm_smul, norm_inv, norm_norm, inv_mul_cancel₀ hn.ne']
  have sc : ∀ h : LinearMap.BilinForm ℝ (Fin d → ℝ), h x x = ‖x‖ ^ 2 * h (‖x‖⁻¹ • x) (‖x‖⁻¹ • x) := by
    intro h
    simp only [map_smul, LinearMap.smul_apply, smul_eq_mul]
    field_simp
  have h1 : m ≤ f (‖x‖⁻¹ • x) (‖x‖⁻¹ • x) := hmin hy
  have h2 : g (‖x‖⁻¹ • x) (‖x‖⁻¹ • x) ≤ M := le_trans (hmax hy) (le_max_right _ _)
  rw [sc f, sc g]
  have : m / M * g (‖x‖⁻¹ • x) (‖x‖⁻¹ • x) ≤ m := by
    calc m / M * g (‖x‖⁻¹ • x) (‖x‖⁻¹ • x) ≤ m / M * M := by gcongr
      _ = m := by field_simp
  nlinarith [sq_nonneg ‖x‖]

variable {X : Type} [AddCommGroup X] [Module ℝ X]

theorem form_bound [FiniteDimensional ℝ X] (f g : LinearMap.BilinForm ℝ X) (hf : ∀ x, x ≠ 0 → 0 < f x x) :
    ∃ c : ℝ, 0 < c ∧ ∀ x, c * g x x ≤ f x x := by
  let φ : (Fin (Module.finrank ℝ X) → ℝ) ≃ₗ[ℝ] X := (Module.finBasis ℝ X).equivFun.symm
  obtain ⟨c, hc, h⟩ := form_bound_pi (f.compl₁₂ φ.toLinearMap φ.toLinearMap) (g.compl₁₂ φ.toLinearMap φ.toLinearMap) (fun x hx => by
    have : φ x ≠ 0 := fun h => hx (by simpa using h)
    simpa using hf _ this)
  refine ⟨c, hc, fun x => ?_⟩
  have := h (φ.symm x)
  simpa using this

/-- Strict reduction of a positive definite form by a linear map is a contraction. -/
theorem form_contracts [FiniteDimensional ℝ X] (f : LinearMap.BilinForm ℝ X) (hf : ∀ x, x ≠ 0 → 0 < f x x) (T : X →ₗ[ℝ] X)
    (hT : ∀ x, x ≠ 0 → f (T x) (T x) < f x x) : ∃ q : ℝ, 0 ≤ q ∧ q < 1 ∧ ∀ x, f (T x) (T x) ≤ q ^ 2 * f x x := by
  obtain ⟨c, hc, h⟩ := form_bound (f - f.compl₁₂ T T) f (fun x hx => by simpa using hT x hx)
  have h' : ∀ x, f (T x) (T x) ≤ (1 - c) * f x x := fun x => by
    have := h x
    simp only [LinearMap.sub_apply, LinearMap.compl₁₂_apply] at this
    linarith
  have nn : ∀ x, 0 ≤ f x x := fun x => by
    by_cases hx : x = 0
    · rw [hx]; simp
    · exact (hf x hx).le
  refine ⟨√(max 0 (1 - c)), Real.sqrt_nonneg _, ?_, fun x => ?_⟩
  · rw [Real.sqrt_lt' one_pos, one_pow]; exact max_lt one_pos (by linarith)
  · rw [Real.sq_sqrt (le_max_left _ _)]
    exact (h' x).trans (mul_le_mul_of_nonneg_right (le_max_right _ _) (nn x))

variable {E : Env ℝ ℝ X} {g : LinearMap.BilinForm ℝ X} {A : X →ₗ[ℝ] X}

theorem RealSpd.solvable [FiniteDimensional ℝ X] (h : RealSpd E g A) (b : X) : ∃ z, A z = b := by
  have : Function.Injective A := by
    rw [injective_iff_map_eq_zero]
    intro x hx
    by_contra hne
    have := h.posA x hne
    rw [hx] at this
    simp at this
  exact LinearMap.injective_iff_surjective.1 this b

theorem RealSpd.nonneg (h : RealSpd E g A) (x : X) : 0 ≤ g x x := by
  by_cases hx : x = 0
  · rw [hx]; simp
  · exact (h.pos x hx).le

theorem RealSpd.nonnegA (h : RealSpd E g A) (x : X) : 0 ≤ g (A x) x := by
  by_cases hx : x = 0
  · rw [hx]; simp
  · exact (h.posA x hx).le

theorem RealSpd.inj (h : RealSpd E g A) {x : X} (hx : x ≠ 0) : A x ≠ 0 := fun h0 => by
  have := h.posA x hx
  rw [h0] at this
  simp at this

/-- Defect norm and error energy bound each other. -/
theorem RealSpd.equivalent [FiniteDimensional ℝ X] (h : RealSpd E g A) : ∃ a c : ℝ, 0 < a ∧ 0 < c ∧
    ∀ x, g (A x) (A x) ≤ a * g (A x) x ∧ g (A x) x ≤ c * g (A x) (A x) := by
  obtain ⟨c1, h1, k1⟩ := form_bound (g.compl₁₂ A LinearMap.id) (g.compl₁₂ A A) (fun x hx => by simpa using h.posA x hx)
  obtain ⟨c2, h2, k2⟩ := form_bound (g.compl₁₂ A A) (g.compl₁₂ A LinearMap.id) (fun x hx => by simpa using h.pos _ (h.inj hx))
  refine ⟨1 / c1, 1 / c2, by positivity, by positivity, fun x => ⟨?_, ?_⟩⟩
  · have := k1 x
    simp only [LinearMap.compl₁₂_apply, LinearMap.id_apply] at this
    rw [one_div, ← div_eq_inv_mul, le_div_iff₀ h1]; linarith
  · have := k2 x
    simp only [LinearMap.compl₁₂_apply, LinearMap.id_apply] at this
    rw [one_div, ← div_eq_inv_mul, le_div_iff₀ h2]; linarith

/-- A run of the frame whose loop states keep `defect = A error` and whose errors contract in energy converges linearly. -/
theorem converges_of_frame [FiniteDimensional ℝ X] (h : RealSpd E g A) {q : ℝ} (hq0 : 0 ≤ q) (hq1 : q < 1) {run : ℝ → Nat → X → X → Exit X ℝ}
    (hrun : ∀ red maxit x b, ∃ xs bs : Nat → X, xs 0 = (E.pre x b).1 ∧ bs 0 = defect0 E x b ∧
      (∀ k z, A z = (E.pre x b).2 → bs k = A (z - xs k) → bs (k + 1) = A (z - xs (k + 1)) ∧
        g (A (z - xs (k + 1))) (z - xs (k + 1)) ≤ q ^ 2 * g (A (z - xs k)) (z - xs k)) ∧
      (let e := run red maxit x b
       e.exc = none ∧ e.it.i ≤ maxit ∧ e.it.def0 = E.norm (bs 0) ∧ e.it.cur = E.norm (bs e.it.i) ∧
        e.it.trace = record (fun j => E.norm (bs j)) e.it.i ∧ e.x = E.post (xs e.it.i) ∧ e.b = bs e.it.i ∧
        e.it.converged = small E red (E.norm (bs 0)) (E.norm (bs e.it.i)) ∧
        (∀ j, j < e.it.i → small E red (E.norm (bs 0)) (E.norm (bs j)) = false) ∧ (e.it.converged = false → e.it.i = maxit))) :
    ∃ C, Converges E g A run q C := by
  obtain ⟨a, c, ha, hc, hac⟩ := h.equivalent
  have main : ∀ red maxit x b, ∃ xs bs : Nat → X, bs 0 = defect0 E x b ∧ xs 0 = (E.pre x b).1 ∧
      (∀ z k, A z = (E.pre x b).2 → g (A (z - xs k)) (z - xs k) ≤ q ^ (2 * k) * g (A (z - xs 0)) (z - xs 0)) ∧
      (∀ k, E.norm (bs k) ≤ √(a * c) * q ^ k * E.norm (bs 0)) ∧
      (let e := run red maxit x b
       e.exc = none ∧ e.it.i ≤ maxit ∧ e.it.def0 = E.norm (bs 0) ∧ e.it.cur = E.norm (bs e.it.i) ∧
        e.it.trace = record (fun j => E.norm (bs j)) e.it.i ∧ e.x = E.post (xs e.it.i) ∧ e.b = bs e.it.i ∧
        e.it.converged = small E red (E.norm (bs 0)) (E.norm (bs e.it.i)) ∧
        (∀ j, j < e.it.i → small E red (E.norm (bs 0)) (E.norm (bs j)) = false) ∧ (e.it.converged = false → e.it.i = maxit)) := by
    intro red maxit x b
    obtain ⟨xs, bs, hx0, hb0, hs, hr⟩ := hrun red maxit x b
    have inv : ∀ z, A z = (E.pre x b).2 → ∀ k, bs k = A (z - xs k) ∧
        g (A (z - xs k)) (z - xs k) ≤ q ^ (2 * k) * g (A (z - xs 0)) (z - xs 0) := by
      intro z hz k
      induction k with
      | zero => refine ⟨?_, by simp⟩; rw [hb0, hx0, map_sub, hz, ← h.sub]; rfl
      | succ k ih =>
        obtain ⟨s1, s2⟩ := hs k z hz ih.1
        refine ⟨s1, s2.trans ?_⟩
        rw [show 2 * (k + 1) = 2 * k + 2 by ring, pow_add, mul_comm (q ^ (2 * k)), mul_assoc]
        exact mul_le_mul_of_nonneg_left ih.2 (sq_nonneg _)
    refine ⟨xs, bs, hb0, hx0, fun z k hz => (inv z hz k).2, fun k => ?_, hr⟩
    obtain ⟨z, hz⟩ := h.solvable (E.pre x b).2
    obtain ⟨i1, i2⟩ := inv z hz k
    obtain ⟨j1, -⟩ := inv z hz 0
    rw [h.norm, h.norm, mul_assoc, ← Real.sqrt_sq (pow_nonneg hq0 k), ← Real.sqrt_mul (by positivity), ← Real.sqrt_mul (by positivity)]
    apply Real.sqrt_le_sqrt
    rw [i1, j1]
    calc g (A (z - xs k)) (A (z - xs k)) ≤ a * g (A (z - xs k)) (z - xs k) := (hac _).1
      _ ≤ a * (q ^ (2 * k) * g (A (z - xs 0)) (z - xs 0)) := by gcongr
      _ ≤ a * (q ^ (2 * k) * (c * g (A (z - xs 0)) (A (z - xs 0)))) := by gcongr; exact (hac _).2
      _ = a * c * ((q ^ k) ^ 2 * g (A (z - xs 0)) (A (z - xs 0))) := by ring
  refine ⟨√(a * c), ⟨hq0, hq1⟩, fun red maxit x b => ?_, fun red maxit x b t ht => ?_, fun red maxit x b => ?_, fun red hred => ?_⟩
  · obtain ⟨xs, bs, -, -, -, -, h1, -⟩ := main red maxit x b
    exact h1
  · obtain ⟨xs, bs, hb0, -, -, hd, -, -, -, -, h5, -⟩ := main red maxit x b
    rw [h5] at ht
    unfold record at ht
    obtain ⟨k, -, rfl⟩ := List.mem_map.1 ht
    rw [← hb0]
    exact hd k
  · obtain ⟨xs, bs, -, hx0, he, -, -, -, -, -, -, h6, -⟩ := main red maxit x b
    refine ⟨_, h6, fun z hz => ?_⟩
    have := he z (run red maxit x b).it.i hz
    rw [hx0] at this
    exact this
  · obtain ⟨N, hN⟩ := exists_pow_lt_of_lt_one (show 0 < red / (√(a * c) + 1) by positivity) hq1
    refine ⟨N, fun maxit x b hm => ?_⟩
    obtain ⟨xs, bs, hb0, -, -, hd, h1, h2, h3, h4, -, -, -, h8, h9, h10⟩ := main red maxit x b
    have hsm : small E red (E.norm (bs 0)) (E.norm (bs N)) = true := by
      have hn0 : 0 ≤ E.norm (bs 0) := by rw [h.norm]; exact Real.sqrt_nonneg _
      unfold small
      rw [Bool.or_eq_true, h.lt, h.lt]
      rcases hn0.eq_or_lt with hz | hp
      · right
        have := hd N
        rw [← hz, mul_zero] at this
        exact lt_of_le_of_lt this h.tiny
      · left
        refine lt_of_le_of_lt (hd N) ?_
        rw [mul_comm (E.norm (bs 0))]
        apply mul_lt_mul_of_pos_right _ hp
        rw [lt_div_iff₀ (by positivity)] at hN
        have : 0 ≤ q ^ N := pow_nonneg hq0 N
        linarith
    have hle : (run red maxit x b).it.i ≤ N := by
      by_contra hlt
      rw [h9 N (by omega)] at hsm
      cases hsm
    have hcv : (run red maxit x b).it.converged = true := by
      cases hc : (run red maxit x b).it.converged with
      | true => rfl
      | false =>
        have e := h10 hc
        have : (run red maxit x b).it.i = N := by omega
        rw [h8, this, hsm] at hc
        cases hc
    refine ⟨?_, hle⟩
    change small E red (run red maxit x b).it.def0 (run red maxit x b).it.cur = true
    rw [h3, h4, ← h8, hcv]

end Solver
end Istl

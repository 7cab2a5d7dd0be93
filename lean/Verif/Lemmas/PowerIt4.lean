import Verif.Lemmas.PowerIt2
import Mathlib.Topology.Algebra.Module.FiniteDimension
import Mathlib.Topology.Order.MonotoneConvergence
import Mathlib.Analysis.SpecificLimits.Basic
import Mathlib.Tactic.Positivity

/-!
# Moments of a positive semidefinite map

`mom B x j = ⟪x, B^j x⟫` is log-convex, so the quotients of successive moments increase and converge.
-/

namespace Istl

namespace Pow

open scoped InnerProductSpace
open Filter Topology

variable {E : Type} [NormedAddCommGroup E] [InnerProductSpace ℝ E] {B : E →ₗ[ℝ] E}

/-- The moments of `B` at `x`. -/
noncomputable def mom (B : E →ₗ[ℝ] E) (x : E) (j : Nat) : ℝ := ⟪x, (B ^ j) x⟫_ℝ

theorem pow_apply (B : E →ₗ[ℝ] E) (j : Nat) (x : E) : (B ^ (j + 1)) x = B ((B ^ j) x) := by
  rw [pow_succ']; rfl

theorem sym_pow (hB : SymMap B) (j : Nat) (x y : E) : ⟪(B ^ j) x, y⟫_ℝ = ⟪x, (B ^ j) y⟫_ℝ := by
  induction j generalizing x y with
  | zero => simp
  | succ j ih => rw [pow_apply, hB, ih, pow_succ]; rfl

theorem mom_add (hB : SymMap B) (x : E) (i j : Nat) : ⟪(B ^ i) x, (B ^ j) x⟫_ℝ = mom B x (i + j) := by
  rw [sym_pow hB, mom, pow_add]; rfl

theorem psd_cs (hB : PsdMap B) (u v : E) : ⟪u, B v⟫_ℝ ^ 2 ≤ ⟪u, B u⟫_ℝ * ⟪v, B v⟫_ℝ := by
  have hs : ⟪v, B u⟫_ℝ = ⟪u, B v⟫_ℝ := by rw [← hB.1, real_inner_comm]
  have key : ∀ t : ℝ, 0 ≤ ⟪v, B v⟫_ℝ * (t * t) + 2 * ⟪u, B v⟫_ℝ * t + ⟪u, B u⟫_ℝ := fun t => by
    have := hB.2 (u + t • v)
    rw [map_add, map_smul, inner_add_left, inner_add_right, inner_add_right, real_inner_smul_left, real_inner_smul_left,
      real_inner_smul_right, real_inner_smul_right, hs] at this
    linarith
  have := discrim_le_zero key
  unfold discrim at this
  nlinarith

theorem psd_zero (hB : PsdMap B) {u : E} (h : ⟪u, B u⟫_ℝ = 0) : B u = 0 := by
  have := psd_cs hB u (B u)
  rw [h, zero_mul] at this
  have h0 : ⟪u, B (B u)⟫_ℝ = 0 := by nlinarith [sq_nonneg ⟪u, B (B u)⟫_ℝ]
  rw [← hB.1] at h0
  exact inner_self_eq_zero.mp h0

theorem pow_ne (hB : PsdMap B) {x : E} (hx : B x ≠ 0) : ∀ j, (B ^ j) x ≠ 0 ∧ B ((B ^ j) x) ≠ 0 := by
  intro j
  induction j with
  | zero => exact ⟨fun h => hx (by rw [show x = 0 from h, map_zero]), hx⟩
  | succ j ih =>
    rw [pow_apply]
    refine ⟨ih.2, fun h => ?_⟩
    have h0 : ⟪(B ^ j) x, B (B ((B ^ j) x))⟫_ℝ = 0 := by rw [h, inner_zero_right]
    rw [← hB.1] at h0
    exact ih.2 (inner_self_eq_zero.mp h0)

theorem mom_even (hB : SymMap B) (x : E) (k : Nat) : mom B x (2 * k) = ‖(B ^ k) x‖ * ‖(B ^ k) x‖ := by
  rw [← real_inner_self_eq_norm_mul_norm, mom_add hB, two_mul]

theorem mom_odd (hB : SymMap B) (x : E) (k : Nat) : mom B x (2 * k + 1) = ⟪(B ^ k) x, B ((B ^ k) x)⟫_ℝ := by
  rw [← pow_apply, mom_add hB]; congr 1; omega

theorem mom_pos (hB : PsdMap B) {x : E} (hx : B x ≠ 0) (j : Nat) : 0 < mom B x j := by
  obtain ⟨k, rfl | rfl⟩ : ∃ k, j = 2 * k ∨ j = 2 * k + 1 := ⟨j / 2, by omega⟩
  · rw [mom_even hB.1]
    have := norm_pos_iff.mpr (pow_ne hB hx k).1
    positivity
  · rw [mom_odd hB.1]
    refine lt_of_le_of_ne (hB.2 _) (fun h => (pow_ne hB hx k).2 (psd_zero hB h.symm))

theorem mom_logconvex (hB : PsdMap B) (x : E) (j : Nat) : mom B x (j + 1) ^ 2 ≤ mom B x j * mom B x (j + 2) := by
  obtain ⟨k, rfl | rfl⟩ : ∃ k, j = 2 * k ∨ j = 2 * k + 1 := ⟨j / 2, by omega⟩
  · rw [show 2 * k + 2 = 2 * (k + 1) by ring, mom_even hB.1, mom_even hB.1, mom_odd hB.1, ← pow_apply]
    have := abs_real_inner_le_norm ((B ^ k) x) ((B ^ (k + 1)) x)
    rw [← sq_abs]
    calc |⟪(B ^ k) x, (B ^ (k + 1)) x⟫_ℝ| ^ 2 ≤ (‖(B ^ k) x‖ * ‖(B ^ (k + 1)) x‖) ^ 2 :=
          pow_le_pow_left₀ (abs_nonneg _) this 2
      _ = _ := by ring
  · have h1 : mom B x (2 * k + 1 + 1) = ⟪(B ^ k) x, B ((B ^ (k + 1)) x)⟫_ℝ := by
      rw [← pow_apply, mom_add hB.1]; congr 1; omega
    rw [h1, mom_odd hB.1, show 2 * k + 1 + 2 = 2 * (k + 1) + 1 by ring, mom_odd hB.1]
    exact psd_cs hB _ _

/-- Quotients of successive moments. -/
noncomputable def quo (B : E →ₗ[ℝ] E) (x : E) (j : Nat) : ℝ := mom B x (j + 1) / mom B x j

theorem quo_pos (hB : PsdMap B) {x : E} (hx : B x ≠ 0) (j : Nat) : 0 < quo B x j :=
  div_pos (mom_pos hB hx _) (mom_pos hB hx _)

theorem quo_mono (hB : PsdMap B) {x : E} (hx : B x ≠ 0) : Monotone (quo B x) := by
  apply monotone_nat_of_le_succ
  intro j
  unfold quo
  rw [div_le_div_iff₀ (mom_pos hB hx _) (mom_pos hB hx _)]
  have := mom_logconvex hB x j
  rw [show j + 1 + 1 = j + 2 by ring]
  nlinarith

theorem quo_even_le (hB : PsdMap B) {x : E} (hx : B x ≠ 0) {C : ℝ} (hC : ∀ z, ⟪z, B z⟫_ℝ ≤ C * ⟪z, z⟫_ℝ) (k : Nat) :
    quo B x (2 * k) ≤ C := by
  unfold quo
  rw [div_le_iff₀ (mom_pos hB hx _), mom_odd hB.1, mom_even hB.1, ← real_inner_self_eq_norm_mul_norm]
  exact hC _

theorem quo_le (hB : PsdMap B) {x : E} (hx : B x ≠ 0) {C : ℝ} (hC : ∀ z, ⟪z, B z⟫_ℝ ≤ C * ⟪z, z⟫_ℝ) (j : Nat) :
    quo B x j ≤ C :=
  (quo_mono hB hx (show j ≤ 2 * j by omega)).trans (quo_even_le hB hx hC j)

theorem form_bound [FiniteDimensional ℝ E] (B : E →ₗ[ℝ] E) : ∃ C, ∀ z, ⟪z, B z⟫_ℝ ≤ C * ⟪z, z⟫_ℝ := by
  refine ⟨‖LinearMap.toContinuousLinearMap B‖, fun z => ?_⟩
  have h1 := (LinearMap.toContinuousLinearMap B).le_opNorm z
  have h2 := real_inner_le_norm z (B z)
  rw [real_inner_self_eq_norm_mul_norm]
  have h3 : ‖B z‖ ≤ ‖LinearMap.toContinuousLinearMap B‖ * ‖z‖ := h1
  nlinarith [norm_nonneg z]

theorem quo_tendsto [FiniteDimensional ℝ E] (hB : PsdMap B) {x : E} (hx : B x ≠ 0) :
    ∃ L, Tendsto (quo B x) atTop (𝓝 L) ∧ ∀ j, quo B x j ≤ L := by
  obtain ⟨C, hC⟩ := form_bound B
  have hbdd : BddAbove (Set.range (quo B x)) := ⟨C, by rintro _ ⟨j, rfl⟩; exact quo_le hB hx hC j⟩
  exact ⟨_, tendsto_atTop_ciSup (quo_mono hB hx) hbdd, fun j => le_ciSup hbdd j⟩

/-- The squared residual of `B^k x`. -/
theorem resid_mom (hB : PsdMap B) {x : E} (hx : B x ≠ 0) (k : Nat) :
    residual B ((B ^ k) x) ^ 2 = quo B x (2 * k) * (quo B x (2 * k + 1) - quo B x (2 * k)) ∧
    ⟪unitVec ((B ^ k) x), B (unitVec ((B ^ k) x))⟫_ℝ = quo B x (2 * k) := by
  have hv := (pow_ne hB hx k).1
  have hn : ‖(B ^ k) x‖ ≠ 0 := norm_ne_zero_iff.mpr hv
  have h1 : ⟪unitVec ((B ^ k) x), B (unitVec ((B ^ k) x))⟫_ℝ = quo B x (2 * k) := by
    rw [← rayleigh_eq B hv, quo, mom_odd hB.1, mom_even hB.1]
  refine ⟨?_, h1⟩
  have h2 := shift_pyth (A := B) (norm_unitVec hv) 0
  have h3 := resid_sub B 0 hv
  rw [zero_smul, sub_zero, zero_smul, sub_zero] at h3
  rw [zero_smul, sub_zero, ← h3, h1] at h2
  have h4 : residual B ((B ^ k) x) = ‖B (unitVec ((B ^ k) x)) - quo B x (2 * k) • unitVec ((B ^ k) x)‖ := by
    rw [residual, h1]
  rw [h4]
  have h5 : ‖B ((B ^ k) x)‖ / ‖(B ^ k) x‖ * (‖B ((B ^ k) x)‖ / ‖(B ^ k) x‖) = quo B x (2 * k) * quo B x (2 * k + 1) := by
    have hp := (mom_pos hB hx (2 * k + 1)).ne'
    have hp' := (mom_pos hB hx (2 * k)).ne'
    have e1 : quo B x (2 * k) * quo B x (2 * k + 1) = mom B x (2 * (k + 1)) / mom B x (2 * k) := by
      unfold quo
      rw [show 2 * k + 1 + 1 = 2 * (k + 1) by ring]
      field_simp
    rw [e1, mom_even hB.1, mom_even hB.1, pow_apply]
    field_simp
  rw [h5] at h2
  linear_combination -h2

theorem resid_tendsto [FiniteDimensional ℝ E] (hB : PsdMap B) {x : E} (hx : B x ≠ 0) {ε : ℝ} (hε : 0 < ε) :
    ∃ N, ∀ k, N ≤ k → residual B ((B ^ k) x) ≤ ε := by
  obtain ⟨L, hL, hle⟩ := quo_tendsto hB hx
  have hLpos : 0 < L := (quo_pos hB hx 0).trans_le (hle 0)
  have hd : ∀ᶠ j in atTop, L - ε ^ 2 / L < quo B x j :=
    hL.eventually (lt_mem_nhds (by have : 0 < ε ^ 2 / L := by positivity
                                   linarith))
  obtain ⟨N, hN⟩ := eventually_atTop.mp hd
  refine ⟨N, fun k hk => ?_⟩
  have h1 := hN (2 * k) (by omega)
  have h2 := hle (2 * k + 1)
  have h3 := hle (2 * k)
  have h4 := quo_pos hB hx (2 * k)
  have h5 := quo_mono hB hx (show 2 * k ≤ 2 * k + 1 by omega)
  have h6 : residual B ((B ^ k) x) ^ 2 ≤ ε ^ 2 := by
    rw [(resid_mom hB hx k).1]
    calc quo B x (2 * k) * (quo B x (2 * k + 1) - quo B x (2 * k)) ≤ L * (ε ^ 2 / L) := by
          apply mul_le_mul h3 (by linarith) (by linarith) hLpos.le
      _ = ε ^ 2 := by field_simp
  exact abs_le_of_sq_le_sq h6 hε.le |>.trans' (le_abs_self _)

/-- The quotients converge to the largest value of the form when `x` has a component along its eigenvector. -/
theorem quo_tendsto_top [FiniteDimensional ℝ E] (hB : PsdMap B) {x v : E} (hx : B x ≠ 0) {μ : ℝ}
    (hv : B v = μ • v) (htop : ∀ z, ⟪z, B z⟫_ℝ ≤ μ * ⟪z, z⟫_ℝ) (hvx : ⟪v, x⟫_ℝ ≠ 0) :
    Tendsto (quo B x) atTop (𝓝 μ) := by
  obtain ⟨L, hL, hle⟩ := quo_tendsto hB hx
  have hLpos : 0 < L := (quo_pos hB hx 0).trans_le (hle 0)
  have hLμ : L ≤ μ := le_of_tendsto' hL (fun j => quo_le hB hx htop j)
  rcases hLμ.lt_or_eq with hlt | heq
  · exfalso
    have hm : ∀ j, mom B x j ≤ mom B x 0 * L ^ j := by
      intro j
      induction j with
      | zero => simp
      | succ j ih =>
        have h1 := hle j
        rw [quo, div_le_iff₀ (mom_pos hB hx j)] at h1
        calc mom B x (j + 1) ≤ L * mom B x j := h1
          _ ≤ L * (mom B x 0 * L ^ j) := mul_le_mul_of_nonneg_left ih hLpos.le
          _ = _ := by ring
    have hpow : ∀ j, (B ^ j) v = μ ^ j • v := by
      intro j
      induction j with
      | zero => simp
      | succ j ih => rw [pow_apply, ih, map_smul, hv, smul_smul, pow_succ]
    have hlow : ∀ j, (μ ^ j * ⟪v, x⟫_ℝ) ^ 2 ≤ ‖v‖ ^ 2 * mom B x (2 * j) := by
      intro j
      have h1 : ⟪v, (B ^ j) x⟫_ℝ = μ ^ j * ⟪v, x⟫_ℝ := by rw [← sym_pow hB.1, hpow, real_inner_smul_left]
      rw [← h1, mom_even hB.1, ← sq_abs]
      calc |⟪v, (B ^ j) x⟫_ℝ| ^ 2 ≤ (‖v‖ * ‖(B ^ j) x‖) ^ 2 := pow_le_pow_left₀ (abs_nonneg _) (abs_real_inner_le_norm _ _) 2
        _ = _ := by ring
    have hμ : 0 < μ := hLpos.trans hlt
    have hr : Tendsto (fun j : Nat => (‖v‖ ^ 2 * mom B x 0) * ((L / μ) ^ 2) ^ j) atTop (𝓝 ((‖v‖ ^ 2 * mom B x 0) * 0)) := by
      apply Tendsto.const_mul
      apply tendsto_pow_atTop_nhds_zero_of_lt_one (by positivity)
      have h1 : L / μ < 1 := (div_lt_one hμ).mpr hlt
      have h2 : 0 < L / μ := by positivity
      nlinarith
    rw [mul_zero] at hr
    have hge : ⟪v, x⟫_ℝ ^ 2 ≤ 0 := by
      refine ge_of_tendsto' hr (fun j => ?_)
      have h1 := (hlow j).trans (mul_le_mul_of_nonneg_left (hm (2 * j)) (sq_nonneg _))
      have h2 : 0 < μ ^ (2 * j) := by positivity
      have h3 : ((L / μ) ^ 2) ^ j = L ^ (2 * j) / μ ^ (2 * j) := by rw [← pow_mul, div_pow]
      rw [h3, ← mul_div_assoc, le_div_iff₀ h2]
      calc ⟪v, x⟫_ℝ ^ 2 * μ ^ (2 * j) = (μ ^ j * ⟪v, x⟫_ℝ) ^ 2 := by ring
        _ ≤ _ := h1
        _ = _ := by ring
    have : 0 < ⟪v, x⟫_ℝ ^ 2 := by positivity
    linarith
  · rw [← heq]; exact hL

/-- Residual and Rayleigh quotient of `A` at the iterates of the inverse `S` of `A - γ`. -/
theorem resid_inv {A S : E →ₗ[ℝ] E} {γ : ℝ} (hS : PsdMap S) (hinv : ∀ z, A (S z) - γ • S z = z) {x : E} (hx : S x ≠ 0)
    (k : Nat) :
    residual A ((S ^ (k + 1)) x) ^ 2 =
      (quo S x (2 * k + 1))⁻¹ * ((quo S x (2 * k))⁻¹ - (quo S x (2 * k + 1))⁻¹) ∧
    ⟪unitVec ((S ^ (k + 1)) x), A (unitVec ((S ^ (k + 1)) x))⟫_ℝ = γ + (quo S x (2 * k + 1))⁻¹ := by
  have hv := (pow_ne hS hx (k + 1)).1
  have hn : ‖(S ^ (k + 1)) x‖ ≠ 0 := norm_ne_zero_iff.mpr hv
  have hz : A ((S ^ (k + 1)) x) - γ • (S ^ (k + 1)) x = (S ^ k) x := by rw [pow_apply]; exact hinv _
  have h0 := update_eq hz hv
  have h1 : ⟪unitVec ((S ^ (k + 1)) x), A (unitVec ((S ^ (k + 1)) x))⟫_ℝ = γ + (quo S x (2 * k + 1))⁻¹ := by
    rw [mom_add hS.1, ← mom_even hS.1, show k + 1 + k = 2 * k + 1 by ring] at h0
    have h2 : (quo S x (2 * k + 1))⁻¹ = mom S x (2 * k + 1) / mom S x (2 * (k + 1)) := by
      rw [quo, inv_div]
      rfl
    rw [h2]; linarith
  refine ⟨?_, h1⟩
  have h2 := shift_pyth (A := A) (norm_unitVec hv) γ
  rw [← resid_sub A γ hv, hz] at h2
  have h3 : residual A ((S ^ (k + 1)) x) ^ 2 = ‖A (unitVec ((S ^ (k + 1)) x)) - ⟪unitVec ((S ^ (k + 1)) x), A (unitVec ((S ^ (k + 1)) x))⟫_ℝ • unitVec ((S ^ (k + 1)) x)‖ * ‖A (unitVec ((S ^ (k + 1)) x)) - ⟪unitVec ((S ^ (k + 1)) x), A (unitVec ((S ^ (k + 1)) x))⟫_ℝ • unitVec ((S ^ (k + 1)) x)‖ := by
    rw [residual, sq]
  rw [← h3, h1] at h2
  have h4 : ‖(S ^ k) x‖ / ‖(S ^ (k + 1)) x‖ * (‖(S ^ k) x‖ / ‖(S ^ (k + 1)) x‖) =
      (quo S x (2 * k))⁻¹ * (quo S x (2 * k + 1))⁻¹ := by
    have hp := (mom_pos hS hx (2 * k + 1)).ne'
    have e1 : (quo S x (2 * k))⁻¹ * (quo S x (2 * k + 1))⁻¹ = mom S x (2 * k) / mom S x (2 * (k + 1)) := by
      unfold quo
      rw [show 2 * k + 1 + 1 = 2 * (k + 1) by ring, inv_div, inv_div]
      field_simp
    rw [e1, mom_even hS.1, mom_even hS.1]
    field_simp
  rw [h4] at h2
  linear_combination -h2

theorem resid_inv_tendsto [FiniteDimensional ℝ E] {A S : E →ₗ[ℝ] E} {γ : ℝ} (hS : PsdMap S)
    (hinv : ∀ z, A (S z) - γ • S z = z) {x : E} (hx : S x ≠ 0) {ε : ℝ} (hε : 0 < ε) :
    ∃ N, ∀ k, N ≤ k → residual A ((S ^ (k + 1)) x) ≤ ε := by
  obtain ⟨L, hL, hle⟩ := quo_tendsto hS hx
  have hLpos : 0 < L := (quo_pos hS hx 0).trans_le (hle 0)
  have hLi : Tendsto (fun j => (quo S x j)⁻¹) atTop (𝓝 L⁻¹) := hL.inv₀ hLpos.ne'
  have hprod : Tendsto (fun k : Nat => (quo S x (2 * k + 1))⁻¹ * ((quo S x (2 * k))⁻¹ - (quo S x (2 * k + 1))⁻¹)) atTop
      (𝓝 (L⁻¹ * (L⁻¹ - L⁻¹))) := by
    have t1 : Tendsto (fun k : Nat => 2 * k) atTop atTop := tendsto_atTop_mono (fun k => by dsimp only [id]; omega) tendsto_id
    have t2 : Tendsto (fun k : Nat => 2 * k + 1) atTop atTop := tendsto_atTop_mono (fun k => by dsimp only [id]; omega) tendsto_id
    exact (hLi.comp t2).mul ((hLi.comp t1).sub (hLi.comp t2))
  rw [sub_self, mul_zero] at hprod
  obtain ⟨N, hN⟩ := eventually_atTop.mp (hprod.eventually (gt_mem_nhds (show (0 : ℝ) < ε ^ 2 by positivity)))
  refine ⟨N, fun k hk => ?_⟩
  have h1 := hN k hk
  rw [← (resid_inv hS hinv hx k).1] at h1
  exact abs_le_of_sq_le_sq h1.le hε.le |>.trans' (le_abs_self _)

end Pow

end Istl

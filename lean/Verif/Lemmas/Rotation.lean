import Verif.Spec.Rotation
import Mathlib.Tactic.FieldSimp
import Mathlib.Tactic.Ring
import Mathlib.Tactic.Linarith
import Mathlib.Tactic.LinearCombination

/-! # Plane rotations -/

namespace Istl
namespace Solver

variable {𝕜 X : Type} [RCLike 𝕜] {E : Env 𝕜 ℝ X}

theorem root_sq (t : ℝ) : Real.sqrt (1 + t * t) ^ 2 = 1 + t * t ∧ 0 < Real.sqrt (1 + t * t) := by
  have h : 0 < 1 + t * t := by nlinarith [mul_self_nonneg t]
  exact ⟨Real.sq_sqrt h.le, Real.sqrt_pos.2 h⟩

/-- The four cases of `planeRotation`. -/
theorem planeRotation_cases (hE : ExactScalars E) (cj : 𝕜 → 𝕜) (dx dy : 𝕜) :
    (‖dy‖ < E.rotEps ∧ planeRotation E cj dx dy = (1, 0)) ∨
    (E.rotEps ≤ ‖dy‖ ∧ ‖dx‖ < E.rotEps ∧ planeRotation E cj dx dy = (0, 1)) ∨
    (E.rotEps ≤ ‖dy‖ ∧ E.rotEps ≤ ‖dx‖ ∧ ‖dx‖ < ‖dy‖ ∧
      ∃ r : ℝ, r = Real.sqrt (1 + ‖dx‖ / ‖dy‖ * (‖dx‖ / ‖dy‖)) ∧
        planeRotation E cj dx dy = (1 / r * (‖dx‖ / ‖dy‖), 1 / (r : 𝕜) * dx * cj dy / (‖dx‖ : 𝕜) / (‖dy‖ : 𝕜))) ∨
    (E.rotEps ≤ ‖dy‖ ∧ E.rotEps ≤ ‖dx‖ ∧ ‖dy‖ ≤ ‖dx‖ ∧
      ∃ r : ℝ, r = Real.sqrt (1 + ‖dy‖ / ‖dx‖ * (‖dy‖ / ‖dx‖)) ∧
        planeRotation E cj dx dy = (1 / r, 1 / (r : 𝕜) * cj (dy / dx))) := by
  have hd : ∀ a b, E.lt a b = decide (a < b) := fun a b => by
    by_cases h : a < b
    · rw [(hE.lt a b).2 h]; simp [h]
    · rw [Bool.eq_false_iff.2 (fun h' => h ((hE.lt a b).1 h'))]; simp [h]
  simp only [planeRotation, hE.abs, hE.ofReal, hE.rsqrt, hd, decide_eq_true_eq]
  by_cases h1 : ‖dy‖ < E.rotEps
  · left; simp [h1]
  · right
    by_cases h2 : ‖dx‖ < E.rotEps
    · left; simp [h1, h2, not_lt.1 h1]
    · right
      by_cases h3 : ‖dx‖ < ‖dy‖
      · left
        refine ⟨not_lt.1 h1, not_lt.1 h2, h3, _, rfl, ?_⟩
        simp [h1, h2, h3, not_lt.2 h3.le]
      · right
        refine ⟨not_lt.1 h1, not_lt.1 h2, not_lt.1 h3, _, rfl, ?_⟩
        rcases (not_lt.1 h3).lt_or_eq with h4 | h4
        · simp [h1, h2, h3, h4]
        · simp [h2, h4]

theorem unitary_of (hE : ExactScalars E) (cj : 𝕜 → 𝕜) (hcj : ∀ z, ‖cj z‖ = ‖z‖) (dx dy : 𝕜) :
    UnitaryRot (planeRotation E cj dx dy).1 (planeRotation E cj dx dy).2 := by
  have he := hE.rotEps
  rcases planeRotation_cases hE cj dx dy with ⟨-, h⟩ | ⟨-, -, h⟩ | ⟨h1, h2, h3, r, hr, h⟩ | ⟨h1, h2, h3, r, hr, h⟩
  · rw [h]; simp [UnitaryRot]
  · rw [h]; simp [UnitaryRot]
  · rw [h]
    obtain ⟨a1, a2⟩ := root_sq (‖dx‖ / ‖dy‖)
    rw [← hr] at a1 a2
    have hx : ‖dx‖ ≠ 0 := by linarith
    have hy : ‖dy‖ ≠ 0 := by linarith
    simp only [UnitaryRot, norm_mul, norm_div, norm_one, hcj, RCLike.norm_ofReal, abs_of_pos a2, abs_norm]
    field_simp
    field_simp at a1
    linarith
  · rw [h]
    obtain ⟨a1, a2⟩ := root_sq (‖dy‖ / ‖dx‖)
    rw [← hr] at a1 a2
    have hx : ‖dx‖ ≠ 0 := by linarith
    have hy : ‖dy‖ ≠ 0 := by linarith
    simp only [UnitaryRot, norm_mul, norm_div, norm_one, hcj, RCLike.norm_ofReal, abs_of_pos a2]
    field_simp
    field_simp at a1
    linarith

theorem sq_conj (z : 𝕜) : starRingEnd 𝕜 z * z = (‖z‖ : 𝕜) ^ 2 := by
  rw [RCLike.conj_mul]

/-- The second component after applying the rotation generated from the same pair. -/
theorem rotation_second (hE : ExactScalars E) (cj : 𝕜 → 𝕜) (dx dy : 𝕜) (hcj : cj dy = starRingEnd 𝕜 dy)
    (hcd : cj (dy / dx) = starRingEnd 𝕜 (dy / dx)) :
    let r := planeRotation E cj dx dy
    (‖dy‖ < E.rotEps ∧ (applyRotation E dx dy r.1 r.2).2 = dy) ∨ (‖dx‖ < E.rotEps ∧ (applyRotation E dx dy r.1 r.2).2 = -dx) ∨
      (applyRotation E dx dy r.1 r.2).2 = 0 := by
  intro r
  have he := hE.rotEps
  have hr' : r = planeRotation E cj dx dy := rfl
  rcases planeRotation_cases hE cj dx dy with ⟨h0, h⟩ | ⟨-, h0, h⟩ | ⟨h1, h2, h3, r0, hr, h⟩ | ⟨h1, h2, h3, r0, hr, h⟩
  · left; refine ⟨h0, ?_⟩
    rw [hr', h]; simp [applyRotation, hE.ofReal, hE.conj]
  · right; left; refine ⟨h0, ?_⟩
    rw [hr', h]; simp [applyRotation, hE.ofReal, hE.conj]
  · right; right
    rw [hr', h, hcj]
    have hx : (‖dx‖ : 𝕜) ≠ 0 := by
      rw [Ne, RCLike.ofReal_eq_zero]; linarith
    have hy : (‖dy‖ : 𝕜) ≠ 0 := by
      rw [Ne, RCLike.ofReal_eq_zero]; linarith
    have hr0 : (r0 : 𝕜) ≠ 0 := by
      rw [Ne, RCLike.ofReal_eq_zero, hr]; exact (root_sq _).2.ne'
    simp only [applyRotation, hE.ofReal, hE.conj, map_mul, map_div₀, map_one, RCLike.conj_ofReal, RCLike.conj_conj, RCLike.ofReal_mul,
      RCLike.ofReal_div, RCLike.ofReal_one]
    field_simp
    rw [sq_conj]
    ring
  · right; right
    rw [hr', h, hcd]
    have hx : dx ≠ 0 := by
      intro h0; rw [h0, norm_zero] at h2; linarith
    have hr0 : (r0 : 𝕜) ≠ 0 := by
      rw [Ne, RCLike.ofReal_eq_zero, hr]; exact (root_sq _).2.ne'
    simp only [applyRotation, hE.ofReal, hE.conj, map_mul, map_div₀, map_one, RCLike.conj_ofReal, RCLike.conj_conj,
      RCLike.ofReal_div, RCLike.ofReal_one]
    field_simp
    ring

/-- A unitary rotation keeps the norm of the pair. -/
theorem rotation_norm (hE : ExactScalars E) (c : ℝ) (s dx dy : 𝕜) (h : UnitaryRot c s) :
    ‖(applyRotation E dx dy c s).1‖ ^ 2 + ‖(applyRotation E dx dy c s).2‖ ^ 2 = ‖dx‖ ^ 2 + ‖dy‖ ^ 2 := by
  have key : (((‖(applyRotation E dx dy c s).1‖ ^ 2 + ‖(applyRotation E dx dy c s).2‖ ^ 2 : ℝ)) : 𝕜) =
      ((‖dx‖ ^ 2 + ‖dy‖ ^ 2 : ℝ) : 𝕜) := by
    have hu : (c : 𝕜) ^ 2 + starRingEnd 𝕜 s * s = 1 := by
      rw [sq_conj]; exact_mod_cast h
    simp only [RCLike.ofReal_add, RCLike.ofReal_pow, ← sq_conj, applyRotation, hE.ofReal, hE.conj, map_add, map_mul, map_neg,
      RCLike.conj_ofReal, RCLike.conj_conj]
    linear_combination (starRingEnd 𝕜 dx * dx + starRingEnd 𝕜 dy * dy) * hu
  exact RCLike.ofReal_injective key

end Solver
end Istl

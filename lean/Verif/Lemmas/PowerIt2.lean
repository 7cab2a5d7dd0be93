import Verif.Lemmas.PowerIt
import Mathlib.Tactic.FieldSimp
import Mathlib.Tactic.LinearCombination

/-!
# One pass of the eigenvalue algorithms in exact arithmetic
-/

namespace Istl

namespace Pow

open scoped InnerProductSpace

variable {E : Type} [NormedAddCommGroup E] [InnerProductSpace ℝ E]

theorem norm_unitVec {v : E} (hv : v ≠ 0) : ‖unitVec v‖ = 1 := by
  have : ‖v‖ ≠ 0 := norm_ne_zero_iff.mpr hv
  rw [unitVec, norm_smul, Real.norm_eq_abs, abs_of_nonneg (by positivity)]
  field_simp

theorem unitVec_smul {c : ℝ} (hc : 0 < c) (v : E) : unitVec (c • v) = unitVec v := by
  unfold unitVec
  rw [norm_smul, Real.norm_eq_abs, abs_of_pos hc, smul_smul]
  congr 1
  by_cases hv : ‖v‖ = 0
  · simp [hv]
  · field_simp

theorem unitVec_eq_smul {v : E} (hv : v ≠ 0) : ∃ c : ℝ, 0 < c ∧ unitVec v = c • v :=
  ⟨1 / ‖v‖, by have := norm_pos_iff.mpr hv; positivity, rfl⟩

theorem unitVec_ne {v : E} (hv : v ≠ 0) : unitVec v ≠ 0 := by
  intro h
  have := norm_unitVec hv
  rw [h, norm_zero] at this
  exact zero_ne_one this

/-- Rayleigh quotient of `y` before normalising. -/
theorem rayleigh_eq (A : E →ₗ[ℝ] E) {y : E} (hy : y ≠ 0) :
    ⟪y, A y⟫_ℝ / (‖y‖ * ‖y‖) = ⟪unitVec y, A (unitVec y)⟫_ℝ := by
  have : ‖y‖ ≠ 0 := norm_ne_zero_iff.mpr hy
  rw [unitVec, map_smul, real_inner_smul_left, real_inner_smul_right]
  field_simp

theorem resid_eq (B : E →ₗ[ℝ] E) (a : ℝ) {y : E} (hy : y ≠ 0) :
    ‖B y + a • y‖ / ‖y‖ = ‖B (unitVec y) + a • unitVec y‖ := by
  have h : ‖y‖ ≠ 0 := norm_ne_zero_iff.mpr hy
  have : B (unitVec y) + a • unitVec y = (1 / ‖y‖) • (B y + a • y) := by
    rw [unitVec, map_smul, smul_add, smul_comm a]
  rw [this, norm_smul, Real.norm_eq_abs, abs_of_nonneg (by positivity)]
  field_simp

/-- A state whose `x`, `lambda`, `r_norm` belong together. -/
def Good (A : E →ₗ[ℝ] E) (s : PState ℝ E) : Prop :=
  ‖s.x‖ = 1 ∧ s.lam = ⟪s.x, A s.x⟫_ℝ ∧ s.r = ‖A s.x - s.lam • s.x‖

/-- Rayleigh quotient and residual of the normalised `y`. -/
noncomputable def pairOf (A : E →ₗ[ℝ] E) (y : E) : ℝ × ℝ :=
  (⟪unitVec y, A (unitVec y)⟫_ℝ, residual A y)

theorem resid_sub (A : E →ₗ[ℝ] E) (a : ℝ) {y : E} (hy : y ≠ 0) :
    ‖A y - a • y‖ / ‖y‖ = ‖A (unitVec y) - a • unitVec y‖ := by
  have := resid_eq A (-a) hy
  simpa only [neg_smul, ← sub_eq_add_neg] using this

variable {A : E →ₗ[ℝ] E} {big : ℝ}

theorem gt_false {a b : ℝ} : (realEnv A big).gt a b = false ↔ a ≤ b := by simp [realEnv]
theorem gt_true {a b : ℝ} : (realEnv A big).gt a b = true ↔ b < a := by simp [realEnv]
theorem ge_true {a b : ℝ} : (realEnv A big).ge a b = true ↔ b ≤ a := by simp [realEnv]
theorem eq_true {a b : ℝ} : (realEnv A big).eq a b = true ↔ a = b := by simp [realEnv]

theorem crimeFree_eq (s : PState ℝ E) (hy : s.y ≠ 0) : crimeFree (realEnv A big) s = pairOf A s.y := by
  unfold crimeFree pairOf
  simp only [realEnv]
  rw [rayleigh_eq A hy, neg_smul, ← sub_eq_add_neg, resid_sub A _ hy]
  rfl

theorem inner_solved {γ : ℝ} {x y : E} (h : A y - γ • y = x) : ⟪y, x⟫_ℝ = ⟪y, A y⟫_ℝ - γ * (‖y‖ * ‖y‖) := by
  rw [← h, inner_sub_right, real_inner_smul_right, real_inner_self_eq_norm_mul_norm]

theorem update_eq {γ : ℝ} {x y : E} (h : A y - γ • y = x) (hy : y ≠ 0) :
    ⟪y, x⟫_ℝ / (‖y‖ * ‖y‖) = ⟪unitVec y, A (unitVec y)⟫_ℝ - γ := by
  have hn : ‖y‖ ≠ 0 := norm_ne_zero_iff.mpr hy
  rw [inner_solved h, ← rayleigh_eq A hy]
  field_simp

theorem invCrime_eq {γ : ℝ} (s : PState ℝ E) (h : A s.y - γ • s.y = s.x) (hy : s.y ≠ 0) :
    invCrime (realEnv A big) γ s = pairOf A s.y := by
  unfold invCrime pairOf
  simp only [realEnv]
  have e1 := update_eq h hy
  rw [e1]
  have e2 : γ + (⟪unitVec s.y, A (unitVec s.y)⟫_ℝ - γ) = ⟪unitVec s.y, A (unitVec s.y)⟫_ℝ := by ring
  rw [e2]
  refine Prod.ext rfl ?_
  dsimp only
  rw [residual, ← resid_sub A _ hy, ← h]
  congr 2
  rw [sub_smul]; abel

theorem rqiCrime_eq (s : PState ℝ E) (h : A s.y - s.lam • s.y = s.x) (hy : s.y ≠ 0) :
    rqiCrime (realEnv A big) s = pairOf A s.y := by
  unfold rqiCrime pairOf
  simp only [realEnv]
  have e1 := update_eq h hy
  rw [e1]
  refine Prod.ext (by dsimp only; ring) ?_
  dsimp only
  rw [residual, ← resid_sub A _ hy]
  congr 2
  rw [← h, neg_smul, sub_smul]; abel

theorem accept_good {s : PState ℝ E} (hy : s.y ≠ 0) : Good A (accept (realEnv A big) (pairOf A s.y) s) :=
  ⟨norm_unitVec hy, rfl, rfl⟩

/-- Pythagoras: the residual with respect to a shift and with respect to the Rayleigh quotient. -/
theorem shift_pyth {u : E} (hu : ‖u‖ = 1) (γ : ℝ) :
    ‖A u - γ • u‖ * ‖A u - γ • u‖ = ‖A u - ⟪u, A u⟫_ℝ • u‖ * ‖A u - ⟪u, A u⟫_ℝ • u‖
      + (γ - ⟪u, A u⟫_ℝ) * (γ - ⟪u, A u⟫_ℝ) := by
  simp only [← real_inner_self_eq_norm_mul_norm, inner_sub_left, inner_sub_right, real_inner_smul_left,
    real_inner_smul_right]
  have h1 : ⟪u, u⟫_ℝ = 1 := by rw [real_inner_self_eq_norm_mul_norm, hu]; ring
  rw [h1, real_inner_comm u (A u)]
  ring

/-- The three numbers of TLIME with `y` a solution for the shift `mu` of the pass. -/
theorem tlime_nums {γ mu : ℝ} (avoid : Bool) (s : PState ℝ E) (hmu : mu = if s.doRQI then s.lam else γ)
    (h : A s.y - mu • s.y = s.x) (hx : ‖s.x‖ = 1) (hy : s.y ≠ 0) :
    (tlimeNums (realEnv A big) avoid γ s).1 = (pairOf A s.y).1 ∧
    (tlimeNums (realEnv A big) avoid γ s).2.2 = (pairOf A s.y).2 ∧
    (s.doRQI = false → (tlimeNums (realEnv A big) avoid γ s).2.1 = ‖A (unitVec s.y) - γ • unitVec s.y‖) := by
  have hn : ‖s.y‖ ≠ 0 := norm_ne_zero_iff.mpr hy
  have hm : ∀ a : ℝ, a * (1 / ‖s.y‖) = a / ‖s.y‖ := fun a => by ring
  have hm2 : ∀ a : ℝ, a * (1 / ‖s.y‖ * (1 / ‖s.y‖)) = a / (‖s.y‖ * ‖s.y‖) := fun a => by field_simp
  unfold tlimeNums
  by_cases ha : avoid = true
  · rw [if_pos ha]
    unfold tlimeCrimeFree
    simp only [realEnv]
    have e1 : ⟪s.y, A s.y⟫_ℝ * (1 / ‖s.y‖ * (1 / ‖s.y‖)) = (pairOf A s.y).1 := by
      rw [hm2, rayleigh_eq A hy]; rfl
    have e2 : ‖A s.y + -γ • s.y‖ * (1 / ‖s.y‖) = ‖A (unitVec s.y) - γ • unitVec s.y‖ := by
      rw [hm, neg_smul, ← sub_eq_add_neg, resid_sub A _ hy]
    have e3 := shift_pyth (A := A) (norm_unitVec hy) γ
    simp only [e1, e2, e3]
    have e4 : ∀ t c : ℝ, t + c * c - (c * c) = t := fun t c => by ring
    change _ ∧ _ ∧ _
    have e5 : ‖A (unitVec s.y) - ⟪unitVec s.y, A (unitVec s.y)⟫_ℝ • unitVec s.y‖ = (pairOf A s.y).2 := rfl
    have e6 : ⟪unitVec s.y, A (unitVec s.y)⟫_ℝ = (pairOf A s.y).1 := rfl
    rw [e5, e6, e4]
    have hpos : (0 : ℝ) ≤ (pairOf A s.y).2 * (pairOf A s.y).2 := mul_self_nonneg _
    rw [if_pos (by simpa using hpos)]
    refine ⟨rfl, ?_, fun _ => rfl⟩
    dsimp only
    rw [Real.sqrt_mul_self]
    exact norm_nonneg _
  · rw [if_neg ha]
    by_cases hd : s.doRQI = true
    · rw [if_pos hd] at hmu ⊢
      rw [hmu] at h
      have e1 := update_eq h hy
      unfold tlimeRQI
      simp only [realEnv]
      simp only [hm2, e1]
      simp only [hm]
      refine ⟨by change s.lam + _ = _; rw [pairOf]; ring, ?_, fun h => absurd hd (by simp [h])⟩
      rw [pairOf, residual, ← resid_sub A _ hy, ← h]
      dsimp only
      congr 2
      rw [neg_smul, sub_smul]; abel
    · rw [if_neg hd] at hmu ⊢
      rw [hmu] at h
      have e1 := update_eq h hy
      unfold tlimeII
      simp only [realEnv]
      simp only [hm2, e1]
      simp only [hm]
      have e2 : γ + (⟪unitVec s.y, A (unitVec s.y)⟫_ℝ - γ) = ⟪unitVec s.y, A (unitVec s.y)⟫_ℝ := by ring
      rw [e2]
      refine ⟨rfl, ?_, fun _ => ?_⟩
      · rw [pairOf, residual, ← resid_sub A _ hy]
        dsimp only
        congr 2
        rw [← h, sub_smul]; abel
      · rw [← resid_sub A _ hy, h, hx]

end Pow

end Istl

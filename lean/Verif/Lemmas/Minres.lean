import Verif.Spec.Minres
import Verif.Props.C32
import Verif.Lemmas.SpMat
import Mathlib.Tactic.Module
import Mathlib.Tactic.LinearCombination
import Mathlib.Tactic.FieldSimp

/-!
# MINRES: Lanczos vectors, search directions and residuals
-/

namespace Istl
namespace Solver

variable {X : Type} [AddCommGroup X] [Module ℝ X] {E : Env ℝ ℝ X} {g : LinearMap.BilinForm ℝ X} {A B : X →ₗ[ℝ] X} {x b : X} {d : ℝ}

/-- Lanczos vector number `j + 1`. -/
noncomputable def mQ (E : Env ℝ ℝ X) (x b : X) (d : ℝ) (j : Nat) : X := (minState E x b d j).q ((j + 1) % 3)

/-- The Lanczos vector before it. -/
noncomputable def mQm (E : Env ℝ ℝ X) (x b : X) (d : ℝ) : Nat → X
  | 0 => 0
  | j + 1 => mQ E x b d j

/-- Search direction number `j`. -/
noncomputable def mP (E : Env ℝ ℝ X) (x b : X) (d : ℝ) (j : Nat) : X := (minState E x b d j).p ((j + 1) % 3)

/-- Cosine of rotation `j`. -/
noncomputable def mC (E : Env ℝ ℝ X) (x b : X) (d : ℝ) : Nat → ℝ
  | 0 => 1
  | j + 1 => (minState E x b d (j + 1)).c ((j + 1) % 2)

/-- Sine of rotation `j`. -/
noncomputable def mS (E : Env ℝ ℝ X) (x b : X) (d : ℝ) : Nat → ℝ
  | 0 => 0
  | j + 1 => (minState E x b d (j + 1)).s ((j + 1) % 2)

/-- Last entry of the rotated right hand side. -/
noncomputable def mXi (E : Env ℝ ℝ X) (x b : X) (d : ℝ) (j : Nat) : ℝ := (minState E x b d j).xi (j % 2)

/-- Norm of the Lanczos vector `j + 1` before normalisation. -/
noncomputable def mBeta (E : Env ℝ ℝ X) (x b : X) (d : ℝ) (j : Nat) : ℝ := (minState E x b d j).beta

/-- The last vector of the rotated basis. -/
noncomputable def mU (E : Env ℝ ℝ X) (x b : X) (d : ℝ) : Nat → X
  | 0 => mQ E x b d 0
  | j + 1 => -mS E x b d (j + 1) • mU E x b d j + mC E x b d (j + 1) • mQ E x b d (j + 1)

/-- Diagonal entry of the tridiagonal matrix. -/
noncomputable def mAl (E : Env ℝ ℝ X) (x b : X) (d : ℝ) (j : Nat) : ℝ := (minLanczos E (j + 1) (minState E x b d j)).1

/-- Column of the rotated matrix. -/
noncomputable def mT (E : Env ℝ ℝ X) (x b : X) (d : ℝ) (j : Nat) : ℝ × ℝ × ℝ :=
  minColumn E (j + 1) (minState E x b d j) (mAl E x b d j)

theorem min_q_prev (j : Nat) : (minState E x b d j).q (j % 3) = mQm E x b d j := by
  cases j with
  | zero => rfl
  | succ j =>
    change upd _ _ _ _ = _
    rw [upd_ne]
    · rfl
    · omega

theorem min_p_prev (j : Nat) : (minState E x b d (j + 1)).p ((j + 1) % 3) = mP E x b d j := by
  change upd _ _ _ _ = _
  rw [upd_ne]
  · rfl
  · omega

theorem min_c_prev (j : Nat) : (minState E x b d (j + 2)).c ((j + 3) % 2) = mC E x b d (j + 1) := by
  change upd _ _ _ _ = _
  rw [upd_ne]
  · change (minState E x b d (j + 1)).c _ = (minState E x b d (j + 1)).c _
    congr 1; omega
  · omega

theorem min_s_prev (j : Nat) : (minState E x b d (j + 2)).s ((j + 3) % 2) = mS E x b d (j + 1) := by
  change upd _ _ _ _ = _
  rw [upd_ne]
  · change (minState E x b d (j + 1)).s _ = (minState E x b d (j + 1)).s _
    congr 1; omega
  · omega

theorem min_beta0 (j : Nat) : (minState E x b d j).beta0 = mBeta E x b d 0 := by
  induction j with
  | zero => rfl
  | succ j ih => exact ih

/-- Normalisation factor. -/
theorem min_f (h : MinExact E g A B) {e a : ℝ} (he : e ≠ 0) : (if E.isZero e = true then 0 else 1 / a : ℝ) = 1 / a := by
  rw [if_neg (fun hz => he ((h.isZero e).1 hz))]

theorem min_z (h : MinExact E g A B) (j : Nat) : (minState E x b d j).z = B (mQ E x b d j) := by
  cases j with
  | zero =>
    change (_ : ℝ) • E.prec 0 b = B ((if E.isZero d = true then 0 else 1 / E.sqrt (E.dot b (E.prec 0 b)) : ℝ) • b)
    rw [map_smul, ← h.prec 0]
  | succ j =>
    change (_ : ℝ) • (minLanczos E (j + 1) (minState E x b d j)).2.2.1 = B (upd _ _ _ _)
    rw [show (j + 1 + 1) % 3 = ((j + 1) % 3 + 1) % 3 by omega, upd_same, map_smul]
    change _ • E.prec _ _ = _
    rw [h.prec]
    rfl

/-- The Lanczos vector before normalisation. -/
theorem min_w (h : MinExact E g A B) (j : Nat) : (minLanczos E (j + 1) (minState E x b d j)).2.1 =
    A (B (mQ E x b d j)) - mBeta E x b d j • mQm E x b d j - mAl E x b d j • mQ E x b d j := by
  have e0 : ((j + 1) % 3 + 2) % 3 = j % 3 := by omega
  change E.op (minState E x b d j).z + (-(minState E x b d j).beta) • (minState E x b d j).q (((j + 1) % 3 + 2) % 3) +
    (-mAl E x b d j) • (minState E x b d j).q ((j + 1) % 3) = _
  rw [e0, min_q_prev, h.op, min_z h]
  change _ + (-mBeta E x b d j) • _ + _ • mQ E x b d j = _
  module

theorem min_al (h : MinExact E g A B) (j : Nat) : mAl E x b d j =
    g (B (mQ E x b d j)) (A (B (mQ E x b d j)) - mBeta E x b d j • mQm E x b d j) := by
  have e0 : ((j + 1) % 3 + 2) % 3 = j % 3 := by omega
  change E.dot (minState E x b d j).z (E.op (minState E x b d j).z + (-(minState E x b d j).beta) • (minState E x b d j).q (((j + 1) % 3 + 2) % 3)) = _
  rw [e0, min_q_prev, h.op, min_z h, h.dot, neg_smul, ← sub_eq_add_neg]
  rfl

theorem min_beta (h : MinExact E g A B) (j : Nat) : mBeta E x b d (j + 1) =
    Real.sqrt (g (minLanczos E (j + 1) (minState E x b d j)).2.1 (B (minLanczos E (j + 1) (minState E x b d j)).2.1)) := by
  change E.sqrt (E.dot _ (E.prec _ _)) = _
  rw [h.sqrt, h.dot, h.prec]
  rfl

theorem min_q_succ (h : MinExact E g A B) (j : Nat) (hd : (minState E x b d j).d ≠ 0) : mQ E x b d (j + 1) =
    (1 / mBeta E x b d (j + 1)) • (minLanczos E (j + 1) (minState E x b d j)).2.1 := by
  change upd _ _ _ _ = _
  rw [show (j + 1 + 1) % 3 = ((j + 1) % 3 + 1) % 3 by omega, upd_same, min_f h hd]
  rfl

theorem MinExact.zero_of (h : MinExact E g A B) {w : X} (hw : Real.sqrt (g w (B w)) = 0) : w = 0 := by
  by_contra hne
  have := h.posB w hne
  rw [h.comm] at this
  exact absurd hw (Real.sqrt_ne_zero'.2 this)

theorem MinExact.nonneg (h : MinExact E g A B) (w : X) : 0 ≤ g w (B w) := by
  by_cases hw : w = 0
  · rw [hw]; simp
  · rw [h.comm]; exact (h.posB w hw).le

/-- `w = beta q`. -/
theorem min_w_eq (h : MinExact E g A B) (j : Nat) (hd : (minState E x b d j).d ≠ 0) :
    (minLanczos E (j + 1) (minState E x b d j)).2.1 = mBeta E x b d (j + 1) • mQ E x b d (j + 1) := by
  by_cases hb : mBeta E x b d (j + 1) = 0
  · rw [hb, zero_smul]
    rw [min_beta h] at hb
    exact h.zero_of hb
  · rw [min_q_succ h j hd, smul_smul, mul_one_div_cancel hb, one_smul]

/-- The three term recurrence. -/
theorem min_lanczos (h : MinExact E g A B) (j : Nat) (hd : (minState E x b d j).d ≠ 0) : A (B (mQ E x b d j)) =
    mBeta E x b d j • mQm E x b d j + mAl E x b d j • mQ E x b d j + mBeta E x b d (j + 1) • mQ E x b d (j + 1) := by
  rw [← min_w_eq h j hd, min_w h]
  module

theorem min_q_zero (h : MinExact E g A B) (hd : d ≠ 0) : mQ E x b d 0 = (1 / mBeta E x b d 0) • b := by
  change (if (0 + 1) % 3 = 1 then (if E.isZero d = true then 0 else 1 / E.sqrt (E.dot b (E.prec 0 b)) : ℝ) • b else 0) = _
  rw [if_pos rfl, min_f h hd]
  rfl

theorem min_beta_zero (h : MinExact E g A B) : mBeta E x b d 0 = Real.sqrt (g b (B b)) := by
  change E.sqrt (E.dot b (E.prec 0 b)) = _
  rw [h.sqrt, h.dot, h.prec]

/-- A vector scaled by its norm has norm one. -/
theorem MinExact.unit (h : MinExact E g A B) {w : X} {a : ℝ} (ha : a = Real.sqrt (g w (B w))) (hne : a ≠ 0) :
    g ((1 / a) • w) (B ((1 / a) • w)) = 1 := by
  rw [map_smul, map_smul, map_smul, LinearMap.smul_apply, smul_eq_mul, smul_eq_mul]
  have : a * a = g w (B w) := by rw [ha]; exact Real.mul_self_sqrt (h.nonneg w)
  rw [← this]
  field_simp

/-- The Lanczos vectors are orthonormal in the scalar product given by the preconditioner. -/
theorem min_orth (h : MinExact E g A B) : ∀ k, (∀ j, j < k → (minState E x b d j).d ≠ 0) → d ≠ 0 → (∀ j, j ≤ k → mBeta E x b d j ≠ 0) →
    ∀ i j, i ≤ k → j ≤ k → g (mQ E x b d i) (B (mQ E x b d j)) = if i = j then 1 else 0 := by
  intro k
  induction k with
  | zero =>
    intro _ hd hb i j hi hj
    rw [show i = 0 by omega, show j = 0 by omega, if_pos rfl, min_q_zero h hd]
    exact h.unit (min_beta_zero h) (hb 0 (le_refl _))
  | succ k ih =>
    intro hdk hd hb
    have O := ih (fun j hj => hdk j (by omega)) hd (fun j hj => hb j (by omega))
    have sym : ∀ u v, g u (B v) = g v (B u) := fun u v => by rw [h.comm, h.adjB]
    have hdd := hdk k (by omega)
    have hbb := hb (k + 1) (le_refl _)
    have hq := min_q_succ h k hdd
    -- orthogonality of the new vector
    have new : ∀ i, i ≤ k → g (mQ E x b d i) (B (mQ E x b d (k + 1))) = 0 := by
      intro i hi
      suffices hw : g (mQ E x b d i) (B (minLanczos E (k + 1) (minState E x b d k)).2.1) = 0 by
        rw [hq, map_smul, map_smul, hw, smul_zero]
      have move : g (mQ E x b d i) (B (A (B (mQ E x b d k)))) = g (mQ E x b d k) (B (A (B (mQ E x b d i)))) := by
        rw [← h.adjB, ← h.adjA, ← h.adjB, h.comm]
      rw [min_w h]
      simp only [map_sub, map_smul, smul_eq_mul]
      by_cases hik : i = k
      · subst hik
        rw [O i i hi hi, if_pos rfl]
        have := min_al h (x := x) (b := b) (d := d) i
        rw [map_sub, map_smul, smul_eq_mul] at this
        rw [← h.adjB, ← h.adjB, this]
        ring
      · rw [O i k hi (le_refl _), if_neg hik, mul_zero, sub_zero, move, min_lanczos h i (hdk i (by omega))]
        simp only [map_add, map_smul, smul_eq_mul]
        rw [O k i (le_refl _) hi, if_neg (Ne.symm hik), mul_zero, add_zero]
        obtain ⟨k, rfl⟩ : ∃ k', k = k' + 1 := ⟨k - 1, by omega⟩
        rw [show mQm E x b d (k + 1) = mQ E x b d k from rfl]
        have e1 : g (mQ E x b d (k + 1)) (B (mQm E x b d i)) = 0 := by
          cases i with
          | zero => change g _ (B 0) = 0; rw [map_zero, map_zero]
          | succ i =>
            change g _ (B (mQ E x b d i)) = 0
            rw [O (k + 1) i (le_refl _) (by omega), if_neg (by omega)]
        rw [e1, O (k + 1) (i + 1) (le_refl _) (by omega), O i k hi (by omega)]
        by_cases hi2 : i = k
        · rw [hi2, if_pos rfl, if_pos rfl]; ring
        · rw [if_neg hi2, if_neg (by omega)]; ring
    intro i j hi hj
    by_cases h1 : i = k + 1
    · by_cases h2 : j = k + 1
      · rw [h1, h2, if_pos rfl, hq]
        exact h.unit (min_beta h k) hbb
      · rw [h1, if_neg (by omega), sym]
        exact new j (by omega)
    · by_cases h2 : j = k + 1
      · rw [h2, if_neg (by omega)]
        exact new i (by omega)
      · exact O i j (by omega) (by omega)

end Solver
end Istl

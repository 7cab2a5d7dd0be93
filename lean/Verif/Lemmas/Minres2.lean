import Verif.Lemmas.Minres

/-!
# MINRES: rotations and residuals
-/

namespace Istl
namespace Solver

variable {X : Type} [AddCommGroup X] [Module ℝ X] {E : Env ℝ ℝ X} {g : LinearMap.BilinForm ℝ X} {A B : X →ₗ[ℝ] X} {x b : X} {d : ℝ}

theorem mC_succ (j : Nat) : mC E x b d (j + 1) = (planeRotation E id (mT E x b d j).2.2 (mBeta E x b d (j + 1))).1 := by
  change upd _ _ _ _ = _
  rw [upd_same]; rfl

theorem mS_succ (j : Nat) : mS E x b d (j + 1) = (planeRotation E id (mT E x b d j).2.2 (mBeta E x b d (j + 1))).2 := by
  change upd _ _ _ _ = _
  rw [upd_same]; rfl

theorem m_unit (h : MinExact E g A B) (j : Nat) : mC E x b d j ^ 2 + mS E x b d j ^ 2 = 1 := by
  cases j with
  | zero => change (1 : ℝ) ^ 2 + 0 ^ 2 = 1; norm_num
  | succ j =>
    rw [mC_succ, mS_succ]
    have := C32_unitary_minres h.scalars (mT E x b d j).2.2 (mBeta E x b d (j + 1))
    rwa [Real.norm_eq_abs, sq_abs] at this

theorem m_annih (h : MinExact E g A B) (j : Nat) (hr : RotOk E (j + 1) (minState E x b d j)) :
    mS E x b d (j + 1) * (mT E x b d j).2.2 = mC E x b d (j + 1) * mBeta E x b d (j + 1) := by
  have := C32_annihilates_minres h.scalars (mT E x b d j).2.2 (mBeta E x b d (j + 1)) hr.1 hr.2
  rw [← mC_succ, ← mS_succ] at this
  change -(E.conj (mS E x b d (j + 1))) * _ + E.ofReal (mC E x b d (j + 1)) * _ = 0 at this
  rw [h.scalars.conj, h.scalars.ofReal] at this
  simp only [RCLike.ofReal_real_eq_id, id, conj_trivial] at this
  linarith

/-- The new column. -/
theorem mT_zero : (mT E x b d 0).2.2 = mAl E x b d 0 := rfl

theorem mT_succ (h : MinExact E g A B) (j : Nat) : mT E x b d (j + 1) =
    (mS E x b d j * mBeta E x b d (j + 1),
     mC E x b d (j + 1) * (mC E x b d j * mBeta E x b d (j + 1)) + mS E x b d (j + 1) * mAl E x b d (j + 1),
     mC E x b d (j + 1) * mAl E x b d (j + 1) - mS E x b d (j + 1) * (mC E x b d j * mBeta E x b d (j + 1))) := by
  have e1 : (j + 1 + 1 + 1) % 2 = (j + 1) % 2 := by omega
  have of : ∀ r : ℝ, E.ofReal r = r := fun r => by rw [h.scalars.ofReal]; rfl
  unfold mT minColumn
  rw [show (minState E x b d (j + 1)).T2 = mBeta E x b d (j + 1) from rfl]
  dsimp only
  rw [if_pos (show 1 < j + 1 + 1 by omega), if_pos (show 1 < j + 1 + 1 by omega), e1,
    show (minState E x b d (j + 1)).c ((j + 1) % 2) = mC E x b d (j + 1) from rfl,
    show (minState E x b d (j + 1)).s ((j + 1) % 2) = mS E x b d (j + 1) from rfl]
  simp only [of]
  cases j with
  | zero =>
    rw [if_neg (by omega), if_neg (by omega)]
    change (_, _, _) = ((0 : ℝ) * _, _ * ((1 : ℝ) * _) + _, _ - _ * ((1 : ℝ) * _))
    rw [zero_mul, one_mul]
  | succ j =>
    rw [if_pos (by omega), if_pos (by omega)]
    have := min_c_prev (E := E) (x := x) (b := b) (d := d) j
    have hs := min_s_prev (E := E) (x := x) (b := b) (d := d) j
    rw [show (j + 1 + 1 + 1) % 2 = (j + 3) % 2 by omega, this, hs]

/-- The final diagonal entry. -/
noncomputable def mD (E : Env ℝ ℝ X) (x b : X) (d : ℝ) (j : Nat) : ℝ :=
  mC E x b d (j + 1) * (mT E x b d j).2.2 + mS E x b d (j + 1) * mBeta E x b d (j + 1)

theorem mD_c (h : MinExact E g A B) (j : Nat) (hr : RotOk E (j + 1) (minState E x b d j)) :
    mD E x b d j * mC E x b d (j + 1) = (mT E x b d j).2.2 ∧ mD E x b d j * mS E x b d (j + 1) = mBeta E x b d (j + 1) := by
  have hu := m_unit h (x := x) (b := b) (d := d) (j + 1)
  have ha := m_annih h j hr
  unfold mD
  constructor
  · linear_combination (mT E x b d j).2.2 * hu - mS E x b d (j + 1) * ha
  · linear_combination mBeta E x b d (j + 1) * hu + mC E x b d (j + 1) * ha

/-- The search direction before the last one. -/
noncomputable def mPm (E : Env ℝ ℝ X) (x b : X) (d : ℝ) : Nat → X
  | 0 => 0
  | j + 1 => mP E x b d j

theorem mP_succ (h : MinExact E g A B) (j : Nat) : mP E x b d (j + 1) =
    (1 / mD E x b d j) • (B (mQ E x b d j) - (mT E x b d j).2.1 • mP E x b d j -
      (mT E x b d j).1 • mPm E x b d j) := by
  have of : ∀ r : ℝ, E.ofReal r = r := fun r => by rw [h.scalars.ofReal]; rfl
  change upd _ _ _ _ = _
  rw [show (j + 1 + 1) % 3 = ((j + 1) % 3 + 1) % 3 by omega, upd_same]
  have ed : E.ofReal (planeRotation E id (minColumn E (j + 1) (minState E x b d j) (minLanczos E (j + 1) (minState E x b d j)).1).2.2
      (minLanczos E (j + 1) (minState E x b d j)).2.2.2).1 *
        (minColumn E (j + 1) (minState E x b d j) (minLanczos E (j + 1) (minState E x b d j)).1).2.2 +
      (planeRotation E id (minColumn E (j + 1) (minState E x b d j) (minLanczos E (j + 1) (minState E x b d j)).1).2.2
      (minLanczos E (j + 1) (minState E x b d j)).2.2.2).2 * (minLanczos E (j + 1) (minState E x b d j)).2.2.2 = mD E x b d j := by
    rw [of]
    unfold mD
    rw [mC_succ, mS_succ]
    rfl
  rw [ed, min_z h]
  congr 1
  have e0 : ((j + 1) % 3 + 2) % 3 = j % 3 := by omega
  rw [e0, show (minState E x b d j).p ((j + 1) % 3) = mP E x b d j from rfl]
  have hp : (minState E x b d j).p (j % 3) = mPm E x b d j := by
    cases j with
    | zero => rfl
    | succ j => exact min_p_prev j
  rw [hp, neg_smul, neg_smul, ← sub_eq_add_neg, ← sub_eq_add_neg]
  rfl

theorem mP_zero : mP E x b d 0 = 0 := rfl

theorem mXi_succ (j : Nat) : mXi E x b d (j + 1) = -mS E x b d (j + 1) * mXi E x b d j := by
  change upd _ _ _ _ = _
  rw [upd_ne _ _ (by omega), upd_same, mS_succ, show (j + 1 + 1) % 2 = j % 2 by omega]
  rfl

theorem mx_succ (h : MinExact E g A B) (j : Nat) : (minState E x b d (j + 1)).x =
    (minState E x b d j).x + (mBeta E x b d 0 * (mXi E x b d j * mC E x b d (j + 1))) • mP E x b d (j + 1) := by
  have of : ∀ r : ℝ, E.ofReal r = r := fun r => by rw [h.scalars.ofReal]; rfl
  change _ + ((minState E x b d j).beta0 * upd _ _ _ _) • _ = _
  rw [upd_same, upd_ne _ _ (by omega), of, min_beta0, show (j + 1 + 1) % 2 = j % 2 by omega, mC_succ]
  have hp : mP E x b d (j + 1) = (minAdvance E (j + 1) (minState E x b d j)).p (((j + 1) % 3 + 1) % 3) := by
    unfold mP; rw [show (j + 1 + 1) % 3 = ((j + 1) % 3 + 1) % 3 by omega]; rfl
  rw [hp]
  change _ = _ + _ • upd _ _ _ _
  rw [upd_same, of]
  rfl

theorem md_succ (h : MinExact E g A B) (j : Nat) : (minState E x b d (j + 1)).d = |mBeta E x b d 0 * mXi E x b d (j + 1)| := by
  change E.abs ((minState E x b d j).beta0 * _) = _
  rw [h.scalars.abs, min_beta0, Real.norm_eq_abs]
  rfl

/-- The image of a search direction before it is scaled. -/
theorem m_AZ (h : MinExact E g A B) (j : Nat) (hd : (minState E x b d j).d ≠ 0)
    (ih : ∀ i, i < j → A (mP E x b d (i + 1)) = mC E x b d (i + 1) • mU E x b d i + mS E x b d (i + 1) • mQ E x b d (i + 1)) :
    A (B (mQ E x b d j) - (mT E x b d j).2.1 • mP E x b d j - (mT E x b d j).1 • mPm E x b d j) =
      (mT E x b d j).2.2 • mU E x b d j + mBeta E x b d (j + 1) • mQ E x b d (j + 1) := by
  rw [map_sub, map_sub, min_lanczos h j hd, map_smul, map_smul]
  cases j with
  | zero =>
    rw [mP_zero, mT_zero]
    change _ • (0 : X) + _ + _ - _ - _ • A 0 = _ • mQ E x b d 0 + _
    rw [map_zero]
    module
  | succ j =>
    have a1 := ih j (by omega)
    have hu1 := m_unit h (x := x) (b := b) (d := d) (j + 1)
    rw [mT_succ h]
    dsimp only
    change _ • mQ E x b d j + _ + _ - _ - _ • A (mP E x b d j) = _
    -- the two inverse rotations
    have i1 : mU E x b d j = mC E x b d (j + 1) • A (mP E x b d (j + 1)) - mS E x b d (j + 1) • mU E x b d (j + 1) := by
      rw [a1]
      change _ = _ - _ • (-mS E x b d (j + 1) • mU E x b d j + mC E x b d (j + 1) • mQ E x b d (j + 1))
      have : mU E x b d j = (mC E x b d (j + 1) ^ 2 + mS E x b d (j + 1) ^ 2) • mU E x b d j := by rw [hu1, one_smul]
      nth_rw 1 [this]
      module
    have i2 : mQ E x b d (j + 1) = mS E x b d (j + 1) • A (mP E x b d (j + 1)) + mC E x b d (j + 1) • mU E x b d (j + 1) := by
      rw [a1]
      change _ = _ + _ • (-mS E x b d (j + 1) • mU E x b d j + mC E x b d (j + 1) • mQ E x b d (j + 1))
      have : mQ E x b d (j + 1) = (mC E x b d (j + 1) ^ 2 + mS E x b d (j + 1) ^ 2) • mQ E x b d (j + 1) := by rw [hu1, one_smul]
      nth_rw 1 [this]
      module
    have i3 : mQ E x b d j = mS E x b d j • A (mP E x b d j) + mC E x b d j • mU E x b d j := by
      cases j with
      | zero =>
        change _ = (0 : ℝ) • _ + (1 : ℝ) • mQ E x b d 0
        rw [zero_smul, one_smul, zero_add]
      | succ j =>
        have a2 := ih j (by omega)
        have hu2 := m_unit h (x := x) (b := b) (d := d) (j + 1)
        rw [a2]
        change _ = _ + _ • (-mS E x b d (j + 1) • mU E x b d j + mC E x b d (j + 1) • mQ E x b d (j + 1))
        have : mQ E x b d (j + 1) = (mC E x b d (j + 1) ^ 2 + mS E x b d (j + 1) ^ 2) • mQ E x b d (j + 1) := by rw [hu2, one_smul]
        nth_rw 1 [this]
        module
    generalize A (mP E x b d (j + 1)) = P1 at *
    generalize A (mP E x b d j) = P0 at *
    generalize mU E x b d (j + 1) = U1 at *
    rw [i3, i1]
    nth_rw 1 [i2]
    module

/-- The image of the search directions: the rotated basis. -/
theorem m_AP (h : MinExact E g A B) : ∀ k, (∀ j, j < k → (minState E x b d j).d ≠ 0) → (∀ j, j < k → RotOk E (j + 1) (minState E x b d j)) →
    (∀ j, j < k → mD E x b d j ≠ 0) → ∀ j, j < k →
    A (mP E x b d (j + 1)) = mC E x b d (j + 1) • mU E x b d j + mS E x b d (j + 1) • mQ E x b d (j + 1) := by
  intro k hd hr hD j
  induction j using Nat.strong_induction_on with
  | _ j ih =>
  intro hj
  have hDj := hD j hj
  obtain ⟨dc, ds⟩ := mD_c h j (hr j hj)
  have hs := m_AZ h j (hd j hj) (fun i hi => ih i hi (by omega))
  rw [mP_succ h, map_smul, hs, ← dc, ← ds]
  rw [smul_add, smul_smul, smul_smul, ← mul_assoc, ← mul_assoc, one_div_mul_cancel hDj, one_mul, one_mul]

/-- The residual is a multiple of the last vector of the rotated basis. -/
theorem m_resid (h : MinExact E g A B) (b0 : X) (h0 : b = b0 - A x) (hd0 : d ≠ 0) (hb0 : mBeta E x b d 0 ≠ 0) :
    ∀ k, (∀ j, j < k → (minState E x b d j).d ≠ 0) → (∀ j, j < k → RotOk E (j + 1) (minState E x b d j)) →
    (∀ j, j < k → mD E x b d j ≠ 0) → b0 - A (minState E x b d k).x = (mBeta E x b d 0 * mXi E x b d k) • mU E x b d k := by
  intro k
  induction k with
  | zero =>
    intro _ _ _
    change b0 - A x = (_ * (1 : ℝ)) • mQ E x b d 0
    rw [min_q_zero h hd0, mul_one, smul_smul, mul_one_div_cancel hb0, one_smul, h0]
  | succ k ih =>
    intro hd hr hD
    have ih := ih (fun j hj => hd j (by omega)) (fun j hj => hr j (by omega)) (fun j hj => hD j (by omega))
    rw [mx_succ h, map_add, map_smul, ← sub_sub, ih, m_AP h (k + 1) hd hr hD k (by omega), mXi_succ]
    change _ = _ • (-mS E x b d (k + 1) • mU E x b d k + mC E x b d (k + 1) • mQ E x b d (k + 1))
    have hu := m_unit h (x := x) (b := b) (d := d) (k + 1)
    have : mU E x b d k = (mC E x b d (k + 1) ^ 2 + mS E x b d (k + 1) ^ 2) • mU E x b d k := by rw [hu, one_smul]
    nth_rw 1 [this]
    module

end Solver
end Istl

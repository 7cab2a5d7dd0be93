import Verif.Lemmas.Minres2
import Mathlib.LinearAlgebra.FiniteDimensional.Basic
import Mathlib.LinearAlgebra.FiniteDimensional.Lemmas

/-!
# MINRES: no breakdown, Krylov spaces, minimality
-/

namespace Istl
namespace Solver

variable {X : Type} [AddCommGroup X] [Module ℝ X] {E : Env ℝ ℝ X} {g : LinearMap.BilinForm ℝ X} {A B : X →ₗ[ℝ] X} {x b : X} {d : ℝ}

/-- Span of the preconditioned Lanczos vectors with index below `k`. -/
noncomputable def mZspan (E : Env ℝ ℝ X) (B : X →ₗ[ℝ] X) (x b : X) (d : ℝ) (k : Nat) : Submodule ℝ X :=
  Submodule.span ℝ {y | ∃ j, j < k ∧ y = B (mQ E x b d j)}

theorem mZspan_mono {k l : Nat} (hkl : k ≤ l) : mZspan E B x b d k ≤ mZspan E B x b d l :=
  Submodule.span_mono (by rintro y ⟨j, hj, rfl⟩; exact ⟨j, by omega, rfl⟩)

theorem mZ_mem {j k : Nat} (h : j < k) : B (mQ E x b d j) ∈ mZspan E B x b d k := Submodule.subset_span ⟨j, h, rfl⟩

theorem mP_mem (h : MinExact E g A B) (j : Nat) : mP E x b d j ∈ mZspan E B x b d j := by
  induction j using Nat.strong_induction_on with
  | _ j ih =>
  cases j with
  | zero => rw [mP_zero]; exact Submodule.zero_mem _
  | succ j =>
    rw [mP_succ h]
    refine Submodule.smul_mem _ _ (Submodule.sub_mem _ (Submodule.sub_mem _ (mZ_mem (by omega)) (Submodule.smul_mem _ _
      (mZspan_mono (by omega) (ih j (by omega))))) (Submodule.smul_mem _ _ ?_))
    cases j with
    | zero => exact Submodule.zero_mem _
    | succ j => exact mZspan_mono (by omega) (ih j (by omega))

theorem mPm_mem (h : MinExact E g A B) (j : Nat) : mPm E x b d j ∈ mZspan E B x b d j := by
  cases j with
  | zero => exact Submodule.zero_mem _
  | succ j => exact mZspan_mono (by omega) (mP_mem h j)

/-- As long as the defect is not zero, neither the Lanczos process nor the factorisation breaks down. -/
theorem m_noBreakdown (h : MinExact E g A B) (hb : b ≠ 0) (hd0 : d ≠ 0) : ∀ k, (∀ j, j < k → (minState E x b d j).d ≠ 0) →
    (∀ j, j < k → RotOk E (j + 1) (minState E x b d j)) → ∀ j, j < k → mBeta E x b d j ≠ 0 ∧ mD E x b d j ≠ 0 := by
  intro k hd hr j
  induction j using Nat.strong_induction_on with
  | _ j ih =>
  intro hj
  have hbeta : mBeta E x b d j ≠ 0 := by
    cases j with
    | zero =>
      rw [min_beta_zero h]
      intro h0
      exact hb (h.zero_of h0)
    | succ j =>
      intro h0
      have hD := (ih j (by omega) (by omega)).2
      have := (mD_c h j (hr j (by omega))).2
      rw [h0] at this
      have hs := (mul_eq_zero.1 this).resolve_left hD
      apply hd (j + 1) hj
      rw [md_succ h, mXi_succ, hs]
      simp
  refine ⟨hbeta, fun h0 => ?_⟩
  obtain ⟨d1, d2⟩ := mD_c h j (hr j hj)
  rw [h0, zero_mul] at d1 d2
  have hall : ∀ i, i ≤ j → mBeta E x b d i ≠ 0 := by
    intro i hi
    rcases Nat.lt_or_ge i j with hlt | hge
    · exact (ih i hlt (by omega)).1
    · rw [show i = j by omega]; exact hbeta
  have az := m_AZ h j (hd j hj) (fun i hi => m_AP h j (fun a ha => hd a (by omega)) (fun a ha => hr a (by omega))
    (fun a ha => (ih a ha (by omega)).2) i hi)
  rw [← d1, ← d2, zero_smul, zero_smul, add_zero] at az
  have z := h.regular _ az
  have O := min_orth h j (fun i hi => hd i (by omega)) hd0 hall
  have hz : ∀ v ∈ mZspan E B x b d j, g (mQ E x b d j) v = 0 := by
    intro v hv
    induction hv using Submodule.span_induction with
    | mem y hy => obtain ⟨i, hi, rfl⟩ := hy; rw [O j i (le_refl _) (by omega), if_neg (by omega)]
    | zero => rw [map_zero]
    | add y z _ _ hy hz => rw [map_add, hy, hz, add_zero]
    | smul c y _ hy => rw [map_smul, hy, smul_zero]
  have one := O j j (le_refl _) (le_refl _)
  rw [if_pos rfl, show B (mQ E x b d j) = (mT E x b d j).2.1 • mP E x b d j + (mT E x b d j).1 • mPm E x b d j by
    rw [sub_sub, sub_eq_zero] at z; exact z, map_add, map_smul, map_smul, hz _ (mP_mem h j), hz _ (mPm_mem h j)] at one
  simp at one

/-- The preconditioned Lanczos vectors lie in the Krylov space. -/
theorem mZ_krylov (h : MinExact E g A B) (hd0 : d ≠ 0) (k : Nat) (hd : ∀ j, j < k → (minState E x b d j).d ≠ 0)
    (hb : ∀ j, j ≤ k → mBeta E x b d j ≠ 0) : B (mQ E x b d k) ∈ krylovSpace (B ∘ₗ A) (B b) (k + 1) := by
  have mono : ∀ {k l : Nat}, k ≤ l → krylovSpace (B ∘ₗ A) (B b) k ≤ krylovSpace (B ∘ₗ A) (B b) l := fun hkl =>
    Submodule.span_mono (by rintro y ⟨j, hj, rfl⟩; exact ⟨j, by omega, rfl⟩)
  have step : ∀ {k : Nat} {y : X}, y ∈ krylovSpace (B ∘ₗ A) (B b) k → B (A y) ∈ krylovSpace (B ∘ₗ A) (B b) (k + 1) := by
    intro k y hy
    induction hy using Submodule.span_induction with
    | mem y hy =>
      obtain ⟨j, hj, rfl⟩ := hy
      exact Submodule.subset_span ⟨j + 1, by omega, by rw [pow_succ']; rfl⟩
    | zero => rw [map_zero, map_zero]; exact Submodule.zero_mem _
    | add y z _ _ hy hz => rw [map_add, map_add]; exact Submodule.add_mem _ hy hz
    | smul c y _ hy => rw [map_smul, map_smul]; exact Submodule.smul_mem _ _ hy
  induction k using Nat.strong_induction_on with
  | _ k ih =>
  cases k with
  | zero =>
    rw [min_q_zero h hd0, map_smul]
    exact Submodule.smul_mem _ _ (Submodule.subset_span ⟨0, by omega, rfl⟩)
  | succ k =>
    have e := min_lanczos h k (hd k (by omega))
    have hbk := hb (k + 1) (le_refl _)
    have e2 : B (mQ E x b d (k + 1)) = (1 / mBeta E x b d (k + 1)) • (B (A (B (mQ E x b d k))) - mBeta E x b d k • B (mQm E x b d k) -
        mAl E x b d k • B (mQ E x b d k)) := by
      rw [e, map_add, map_add, map_smul, map_smul, map_smul]
      rw [show ∀ u v w : X, u + v + w - u - v = w from fun u v w => by abel, smul_smul, one_div_mul_cancel hbk, one_smul]
    rw [e2]
    have ik := ih k (by omega) (fun j hj => hd j (by omega)) (fun j hj => hb j (by omega))
    refine Submodule.smul_mem _ _ (Submodule.sub_mem _ (Submodule.sub_mem _ (step ik) (Submodule.smul_mem _ _ ?_))
      (Submodule.smul_mem _ _ (mono (by omega) ik)))
    cases k with
    | zero => change B 0 ∈ _; rw [map_zero]; exact Submodule.zero_mem _
    | succ k => exact mono (by omega) (ih k (by omega) (fun j hj => hd j (by omega)) (fun j hj => hb j (by omega)))

/-- The Krylov space is spanned by the preconditioned Lanczos vectors. -/
theorem krylov_le_mZ (h : MinExact E g A B) (hd0 : d ≠ 0) (k : Nat) (hd : ∀ j, j < k → (minState E x b d j).d ≠ 0)
    (hb : ∀ j, j < k → mBeta E x b d j ≠ 0) : krylovSpace (B ∘ₗ A) (B b) k ≤ mZspan E B x b d k := by
  have step : ∀ {l : Nat} {y : X}, l < k → y ∈ mZspan E B x b d l → B (A y) ∈ mZspan E B x b d (l + 1) := by
    intro l y hl hy
    induction hy using Submodule.span_induction with
    | mem y hy =>
      obtain ⟨j, hj, rfl⟩ := hy
      rw [min_lanczos h j (hd j (by omega)), map_add, map_add, map_smul, map_smul, map_smul]
      refine Submodule.add_mem _ (Submodule.add_mem _ (Submodule.smul_mem _ _ ?_) (Submodule.smul_mem _ _ (mZ_mem (by omega))))
        (Submodule.smul_mem _ _ (mZ_mem (by omega)))
      cases j with
      | zero => change B 0 ∈ _; rw [map_zero]; exact Submodule.zero_mem _
      | succ j => exact mZ_mem (by omega)
    | zero => rw [map_zero, map_zero]; exact Submodule.zero_mem _
    | add y z _ _ hy hz => rw [map_add, map_add]; exact Submodule.add_mem _ hy hz
    | smul c y _ hy => rw [map_smul, map_smul]; exact Submodule.smul_mem _ _ hy
  have pw : ∀ j, j < k → ((B ∘ₗ A) ^ j) (B b) ∈ mZspan E B x b d (j + 1) := by
    intro j
    induction j with
    | zero =>
      intro hj
      have hb0 := hb 0 hj
      have : B b = mBeta E x b d 0 • B (mQ E x b d 0) := by
        rw [min_q_zero h hd0, map_smul, smul_smul, mul_one_div_cancel hb0, one_smul]
      change B b ∈ _
      rw [this]
      exact Submodule.smul_mem _ _ (mZ_mem (by omega))
    | succ j ih =>
      intro hj
      rw [pow_succ']
      exact step (by omega) (ih (by omega))
  refine Submodule.span_le.2 ?_
  rintro y ⟨j, hj, rfl⟩
  exact mZspan_mono (by omega) (pw j hj)

/-- The preconditioned Lanczos vectors are combinations of the search directions. -/
theorem mZ_le_P (h : MinExact E g A B) (k : Nat) (hD : ∀ j, j < k → mD E x b d j ≠ 0) :
    mZspan E B x b d k ≤ Submodule.span ℝ {y | ∃ j, j < k ∧ y = mP E x b d (j + 1)} := by
  refine Submodule.span_le.2 ?_
  rintro y ⟨j, hj, rfl⟩
  have e : B (mQ E x b d j) = mD E x b d j • mP E x b d (j + 1) + (mT E x b d j).2.1 • mP E x b d j + (mT E x b d j).1 • mPm E x b d j := by
    rw [mP_succ h, smul_smul, mul_one_div_cancel (hD j hj), one_smul]
    module
  have hp : ∀ i, i ≤ j → mP E x b d i ∈ Submodule.span ℝ {y | ∃ j, j < k ∧ y = mP E x b d (j + 1)} := by
    intro i hi
    cases i with
    | zero => rw [mP_zero]; exact Submodule.zero_mem _
    | succ i => exact Submodule.subset_span ⟨i, by omega, rfl⟩
  change B (mQ E x b d j) ∈ _
  rw [e]
  refine Submodule.add_mem _ (Submodule.add_mem _ (Submodule.smul_mem _ _ (Submodule.subset_span ⟨j, hj, rfl⟩))
    (Submodule.smul_mem _ _ (hp j (le_refl _)))) (Submodule.smul_mem _ _ ?_)
  cases j with
  | zero => exact Submodule.zero_mem _
  | succ j => exact hp j (by omega)

/-- Orthogonality of the rotated basis. -/
theorem mU_orth (h : MinExact E g A B) (k : Nat)
    (O : ∀ i j, i ≤ k → j ≤ k → g (mQ E x b d i) (B (mQ E x b d j)) = if i = j then 1 else 0) :
    (∀ j i, j < i → i ≤ k → g (mU E x b d j) (B (mQ E x b d i)) = 0) ∧ (∀ j, j ≤ k → g (mU E x b d j) (B (mU E x b d j)) = 1) ∧
    ∀ l j, j < l → l ≤ k → g (mU E x b d l) (B (mC E x b d (j + 1) • mU E x b d j + mS E x b d (j + 1) • mQ E x b d (j + 1))) = 0 := by
  have sym : ∀ u v, g u (B v) = g v (B u) := fun u v => by rw [h.comm, h.adjB]
  have a : ∀ j i, j < i → i ≤ k → g (mU E x b d j) (B (mQ E x b d i)) = 0 := by
    intro j
    induction j with
    | zero => intro i hi hk; change g (mQ E x b d 0) _ = 0; rw [O 0 i (by omega) hk, if_neg (by omega)]
    | succ j ih =>
      intro i hi hk
      change g (-mS E x b d (j + 1) • mU E x b d j + mC E x b d (j + 1) • mQ E x b d (j + 1)) _ = 0
      rw [map_add, map_smul, map_smul, LinearMap.add_apply, LinearMap.smul_apply, LinearMap.smul_apply, ih i (by omega) hk,
        O (j + 1) i (by omega) hk, if_neg (by omega), smul_zero, smul_zero, add_zero]
  have u : ∀ j, j ≤ k → g (mU E x b d j) (B (mU E x b d j)) = 1 := by
    intro j
    induction j with
    | zero => intro hk; change g (mQ E x b d 0) (B (mQ E x b d 0)) = 1; rw [O 0 0 hk hk, if_pos rfl]
    | succ j ih =>
      intro hk
      have e : mU E x b d (j + 1) = -mS E x b d (j + 1) • mU E x b d j + mC E x b d (j + 1) • mQ E x b d (j + 1) := rfl
      have e2 := O (j + 1) (j + 1) hk hk
      rw [if_pos rfl] at e2
      have e1 := a j (j + 1) (by omega) hk
      have e3 := ih (by omega)
      have e4 := e1
      rw [sym] at e4
      rw [e]
      simp only [map_add, map_smul, LinearMap.add_apply, LinearMap.smul_apply, smul_eq_mul, e1, e2, e3, e4]
      have := m_unit h (x := x) (b := b) (d := d) (j + 1)
      linarith [this]
  refine ⟨a, u, fun l => ?_⟩
  induction l with
  | zero => intro j hj; omega
  | succ l ih =>
    intro j hj hl
    have e : mU E x b d (l + 1) = -mS E x b d (l + 1) • mU E x b d l + mC E x b d (l + 1) • mQ E x b d (l + 1) := rfl
    rw [e]
    by_cases hjl : j = l
    · subst hjl
      have e1 := a j (j + 1) (by omega) hl
      have e2 := O (j + 1) (j + 1) hl hl
      rw [if_pos rfl] at e2
      have e3 := u j (by omega)
      have e4 := e1
      rw [sym] at e4
      simp only [map_add, map_smul, LinearMap.add_apply, LinearMap.smul_apply, smul_eq_mul, e1, e2, e3, e4]
      ring
    · have i1 := ih j (by omega) (by omega)
      have e1 : g (mQ E x b d (l + 1)) (B (mU E x b d j)) = 0 := by rw [sym]; exact a j (l + 1) (by omega) hl
      have e2 := O (l + 1) (j + 1) hl (by omega)
      rw [if_neg (by omega)] at e2
      rw [map_add, LinearMap.add_apply, map_smul, map_smul, LinearMap.smul_apply, LinearMap.smul_apply, i1]
      simp only [map_add, map_smul, smul_eq_mul, e1, e2]
      ring

theorem mP_x (h : MinExact E g A B) (k : Nat) : (minState E x b d k).x - x ∈ mZspan E B x b d k := by
  induction k with
  | zero => change x - x ∈ _; rw [sub_self]; exact Submodule.zero_mem _
  | succ k ih =>
    rw [mx_succ h, add_sub_right_comm]
    exact Submodule.add_mem _ (mZspan_mono (by omega) ih) (Submodule.smul_mem _ _ (mP_mem h (k + 1)))

/-- The main facts about the state after `k` passes. -/
theorem m_main (h : MinExact E g A B) (b0 : X) (h0 : b = b0 - A x) (hb : b ≠ 0) (hd0 : d ≠ 0) (k : Nat)
    (hd : ∀ j, j < k → (minState E x b d j).d ≠ 0) (hr : ∀ j, j < k → RotOk E (j + 1) (minState E x b d j)) :
    let xk := (minState E x b d k).x
    g (b0 - A xk) (B (b0 - A xk)) = (mBeta E x b d 0 * mXi E x b d k) ^ 2 ∧
    xk - x ∈ krylovSpace (B ∘ₗ A) (B b) k ∧
    ∀ v ∈ krylovSpace (B ∘ₗ A) (B b) k, g (b0 - A xk) (B (A v)) = 0 := by
  intro xk
  have nb := m_noBreakdown h hb hd0 k hd hr
  have sym : ∀ u v, g u (B v) = g v (B u) := fun u v => by rw [h.comm, h.adjB]
  have hb0 : mBeta E x b d 0 ≠ 0 := by
    rw [min_beta_zero h]
    intro e; exact hb (h.zero_of e)
  have hres := m_resid h b0 h0 hd0 hb0 k hd hr (fun j hj => (nb j hj).2)
  have kry : xk - x ∈ krylovSpace (B ∘ₗ A) (B b) k := by
    have le : mZspan E B x b d k ≤ krylovSpace (B ∘ₗ A) (B b) k := by
      refine Submodule.span_le.2 ?_
      rintro y ⟨j, hj, rfl⟩
      refine Submodule.span_mono ?_ (mZ_krylov h hd0 j (fun i hi => hd i (by omega)) (fun i hi => (nb i (by omega)).1))
      rintro y ⟨i, hi, rfl⟩
      exact ⟨i, by omega, rfl⟩
    exact le (mP_x h k)
  by_cases hbk : mBeta E x b d k = 0
  · -- the Lanczos process has found an invariant subspace: the residual vanishes
    obtain ⟨k, rfl⟩ : ∃ l, k = l + 1 := by
      cases k with
      | zero => exact absurd hbk hb0
      | succ l => exact ⟨l, rfl⟩
    have := (mD_c h k (hr k (by omega))).2
    rw [hbk] at this
    have hs := (mul_eq_zero.1 this).resolve_left (nb k (by omega)).2
    have hxi : mXi E x b d (k + 1) = 0 := by rw [mXi_succ, hs, neg_zero, zero_mul]
    have hz : b0 - A xk = 0 := by rw [hres, hxi, mul_zero, zero_smul]
    refine ⟨by rw [hz, hxi]; simp, kry, fun v _ => by rw [hz]; simp⟩
  · have O := min_orth h k hd hd0 (fun j hj => by
      rcases Nat.lt_or_ge j k with hlt | hge
      · exact (nb j hlt).1
      · rw [show j = k by omega]; exact hbk)
    obtain ⟨-, u, o⟩ := mU_orth h k O
    refine ⟨?_, kry, fun v hv => ?_⟩
    · rw [hres, map_smul, map_smul, map_smul, LinearMap.smul_apply, u k (le_refl _)]
      simp only [smul_eq_mul]
      ring
    · have hv2 := mZ_le_P h k (fun j hj => (nb j hj).2) (krylov_le_mZ h hd0 k hd (fun j hj => (nb j hj).1) hv)
      clear hv
      induction hv2 using Submodule.span_induction with
      | mem y hy =>
        obtain ⟨j, hj, rfl⟩ := hy
        rw [m_AP h k hd hr (fun j hj => (nb j hj).2) j hj, hres, map_smul, LinearMap.smul_apply, o k j hj (le_refl _), smul_zero]
      | zero => rw [map_zero, map_zero, map_zero]
      | add y z _ _ hy hz => rw [map_add, map_add, map_add, hy, hz, add_zero]
      | smul c y _ hy => rw [map_smul, map_smul, map_smul, hy, smul_zero]

/-- In dimension `n` the defect vanishes after at most `n` passes. -/
theorem m_finite [Module.Finite ℝ X] (h : MinExact E g A B) (hb : b ≠ 0) (hd0 : d ≠ 0)
    (hr : ∀ j, j < Module.finrank ℝ X → (∀ i, i ≤ j → (minState E x b d i).d ≠ 0) → RotOk E (j + 1) (minState E x b d j)) :
    ∃ k, k ≤ Module.finrank ℝ X ∧ (minState E x b d k).d = 0 := by
  by_contra hne
  have hd : ∀ j, j ≤ Module.finrank ℝ X → (minState E x b d j).d ≠ 0 := fun j hj h0 => hne ⟨j, hj, h0⟩
  have hr' : ∀ j, j < Module.finrank ℝ X → RotOk E (j + 1) (minState E x b d j) := fun j hj => hr j hj (fun i hi => hd i (by omega))
  have nb := m_noBreakdown h hb hd0 (Module.finrank ℝ X) (fun j hj => hd j (by omega)) hr'
  have hbn : mBeta E x b d (Module.finrank ℝ X) ≠ 0 := by
    cases hn : Module.finrank ℝ X with
    | zero =>
      rw [min_beta_zero h]
      intro e; exact hb (h.zero_of e)
    | succ n =>
      intro h0
      have := (mD_c h n (hr' n (by omega))).2
      rw [h0] at this
      have hs := (mul_eq_zero.1 this).resolve_left (nb n (by omega)).2
      apply hd (n + 1) (by omega)
      rw [md_succ h, mXi_succ, hs]
      simp
  have O := min_orth h (Module.finrank ℝ X) (fun j hj => hd j (by omega)) hd0 (fun j hj => by
    rcases Nat.lt_or_ge j (Module.finrank ℝ X) with hlt | hge
    · exact (nb j hlt).1
    · rw [show j = Module.finrank ℝ X by omega]; exact hbn)
  have li : LinearIndependent ℝ (fun i : Fin (Module.finrank ℝ X + 1) => mQ E x b d i) := by
    rw [Fintype.linearIndependent_iff]
    intro c hc i
    have := congrArg (fun v => g v (B (mQ E x b d i))) hc
    simp only [map_sum, map_smul, LinearMap.sum_apply, LinearMap.smul_apply, map_zero, LinearMap.zero_apply, smul_eq_mul] at this
    rw [Finset.sum_eq_single i] at this
    · rw [O i i (by omega) (by omega), if_pos rfl, mul_one] at this
      exact this
    · intro j _ hj
      rw [O j i (by omega) (by omega), if_neg (fun e => hj (Fin.ext e)), mul_zero]
    · intro hi; exact absurd (Finset.mem_univ _) hi
  have := li.fintype_card_le_finrank
  rw [Fintype.card_fin] at this
  omega

end Solver
end Istl

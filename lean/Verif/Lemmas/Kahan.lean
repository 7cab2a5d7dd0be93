import Verif.Props.C26
import Verif.Lemmas.FastSmooth
import Mathlib.LinearAlgebra.Matrix.Block
import Mathlib.LinearAlgebra.Matrix.NonsingularInverse
import Mathlib.Topology.Instances.Matrix
import Mathlib.Topology.Instances.Real.Lemmas
import Mathlib.Analysis.SpecificLimits.Basic

/-! # The determinant of the error propagation of SOR sweeps (Kahan) -/

namespace Istl
open Gsetc SpMat Prec Matrix Filter Topology

variable {β : BlockSolve ℝ ℝ ℝ} {A : SpMat ℝ}

/-- The coefficient. -/
noncomputable def coef (A : SpMat ℝ) (i j : Nat) : ℝ := (((A.row i).filter fun e => decide (e.1 = j)).map fun e => e.2).sum

theorem blockAct_real (hβ : ∀ a x, β.act a x = a * x) (A : SpMat ℝ) (i j : Nat) (x : ℝ) : A.blockAct β.act i j x = coef A i j * x := by
  unfold SpMat.blockAct SpMat.partSum coef
  induction (A.row i).filter fun e => decide (e.1 = j) with
  | nil => simp
  | cons e l ih => rw [List.map_cons, List.sum_cons, ih, List.map_cons, List.sum_cons, hβ]; ring

theorem partSum_real (hβ : ∀ a x, β.act a x = a * x) (hC : A.Square) {i : Nat} (hi : i < A.n) (P : Nat → Prop) [DecidablePred P] (x : Nat → ℝ) :
    A.partSum β.act P x i = ∑ j : Fin A.n, if P j then coef A i j * x j else 0 := by
  rw [FastAmg.partSum_eq_sum β.act A P A.n x i (hC i hi), Finset.sum_filter, Finset.sum_range]
  exact Finset.sum_congr rfl fun j _ => by rw [blockAct_real hβ]

theorem coef_diag (hS : A.Sorted) {i : Nat} (hi : i < A.n) {a : ℝ} (ha : (A.row i).Stores i a) : coef A i i = a := by
  unfold coef
  rw [row_split (hS i hi) ha, List.filter_append, List.filter_cons_of_pos (by simp)]
  rw [List.filter_eq_nil_iff.2 (by intro e he; rw [List.mem_filter] at he; have := he.2; simp at this ⊢; omega),
    List.filter_eq_nil_iff.2 (by intro e he; rw [List.mem_filter] at he; have := he.2; simp at this ⊢; omega)]
  simp

section sweep
variable (A) (w : ℝ) (P : Fin A.n → Fin A.n → Prop) [∀ i j, Decidable (P i j)]

/-- The part of the matrix that a sweep inverts. -/
noncomputable def swN : Matrix (Fin A.n) (Fin A.n) ℝ := Matrix.of fun i j => if P i j then w * coef A i j else if i = j then coef A i i else 0

/-- The remaining part. -/
noncomputable def swM : Matrix (Fin A.n) (Fin A.n) ℝ := Matrix.of fun i j => if P i j then 0 else if i = j then (1 - w) * coef A i i else -(w * coef A i j)

/-- The first `n` entries. -/
def headV (n : Nat) (x : Nat → ℝ) : Fin n → ℝ := fun i => x i

theorem sweep_rel (hirr : ∀ i, ¬ P i i) {e v v' : Nat → ℝ}
    (h : ∀ i : Fin A.n, coef A i i * (v' i - v i) = w * (∑ j : Fin A.n, coef A i j * e j - (∑ j : Fin A.n, if P i j then coef A i j * v' j else 0) -
      ∑ j : Fin A.n, if P i j then 0 else coef A i j * v j)) :
    swN A w P *ᵥ headV A.n (fun i => e i - v' i) = swM A w P *ᵥ headV A.n (fun i => e i - v i) := by
  funext i
  have key := h i
  have d1 : ∀ y : Fin A.n → ℝ, (swN A w P *ᵥ y) i = coef A i i * y i + w * ∑ j, if P i j then coef A i j * y j else 0 := by
    intro y
    have : ∀ j, swN A w P i j * y j = (if i = j then coef A i i * y j else 0) + w * if P i j then coef A i j * y j else 0 := by
      intro j
      unfold swN
      rw [Matrix.of_apply]
      by_cases hp : P i j
      · have hne : i ≠ j := fun h => hirr i (by rw [← h] at hp; exact hp)
        simp [hp, hne]; ring
      · by_cases hij : i = j
        · subst hij; simp [hp]
        · simp [hp, hij]
    change ∑ j, swN A w P i j * y j = _
    rw [Finset.sum_congr rfl fun j _ => this j, Finset.sum_add_distrib, ← Finset.mul_sum]
    simp
  have d2 : ∀ y : Fin A.n → ℝ, (swM A w P *ᵥ y) i = coef A i i * y i - w * ∑ j, if P i j then 0 else coef A i j * y j := by
    intro y
    have : ∀ j, swM A w P i j * y j = (if i = j then coef A i i * y j else 0) - w * if P i j then 0 else coef A i j * y j := by
      intro j
      unfold swM
      rw [Matrix.of_apply]
      by_cases hp : P i j
      · have hne : i ≠ j := fun h => hirr i (by rw [← h] at hp; exact hp)
        simp [hp, hne]
      · by_cases hij : i = j
        · subst hij; simp [hp]; ring
        · simp [hp, hij]; ring
    change ∑ j, swM A w P i j * y j = _
    rw [Finset.sum_congr rfl fun j _ => this j, Finset.sum_sub_distrib, ← Finset.mul_sum]
    simp
  rw [d1, d2]
  have s0 : ∑ j : Fin A.n, coef A i j * e j = (∑ j : Fin A.n, if P i j then coef A i j * e j else 0) + ∑ j : Fin A.n, if P i j then 0 else coef A i j * e j := by
    rw [← Finset.sum_add_distrib]
    exact Finset.sum_congr rfl fun j _ => by by_cases hp : P i j <;> simp [hp]
  have s1 : (∑ j : Fin A.n, if P i j then coef A i j * headV A.n (fun i => e i - v' i) j else 0) =
      (∑ j : Fin A.n, if P i j then coef A i j * e j else 0) - ∑ j : Fin A.n, if P i j then coef A i j * v' j else 0 := by
    rw [← Finset.sum_sub_distrib]
    exact Finset.sum_congr rfl fun j _ => by by_cases hp : P i j <;> simp [hp, headV, mul_sub]
  have s2 : (∑ j : Fin A.n, if P i j then 0 else coef A i j * headV A.n (fun i => e i - v i) j) =
      (∑ j : Fin A.n, if P i j then 0 else coef A i j * e j) - ∑ j : Fin A.n, if P i j then 0 else coef A i j * v j := by
    rw [← Finset.sum_sub_distrib]
    exact Finset.sum_congr rfl fun j _ => by by_cases hp : P i j <;> simp [hp, headV, mul_sub]
  rw [s1, s2]
  rw [s0] at key
  simp only [headV]
  linear_combination -key

theorem sweep_prop (hN : (swN A w P).det ≠ 0) (hirr : ∀ i, ¬ P i i) {e v v' : Nat → ℝ}
    (h : ∀ i : Fin A.n, coef A i i * (v' i - v i) = w * (∑ j : Fin A.n, coef A i j * e j - (∑ j : Fin A.n, if P i j then coef A i j * v' j else 0) -
      ∑ j : Fin A.n, if P i j then 0 else coef A i j * v j)) :
    headV A.n (fun i => e i - v' i) = ((swN A w P)⁻¹ * swM A w P) *ᵥ headV A.n (fun i => e i - v i) := by
  rw [← Matrix.mulVec_mulVec, ← sweep_rel A w P hirr h, Matrix.mulVec_mulVec, Matrix.nonsing_inv_mul _ (isUnit_iff_ne_zero.2 hN), Matrix.one_mulVec]

theorem sweep_det (hdN : (swN A w P).det = ∏ i : Fin A.n, coef A i i) (hdM : (swM A w P).det = ∏ i : Fin A.n, (1 - w) * coef A i i)
    (h0 : ∀ i : Fin A.n, coef A i i ≠ 0) : ((swN A w P)⁻¹ * swM A w P).det = (1 - w) ^ A.n := by
  have hp : (∏ i : Fin A.n, coef A i i) ≠ 0 := Finset.prod_ne_zero_iff.2 fun i _ => h0 i
  rw [Matrix.det_mul, Matrix.det_nonsing_inv, hdN, hdM, Finset.prod_mul_distrib, Ring.inverse_eq_inv']
  simp only [Finset.prod_const, Finset.card_univ, Fintype.card_fin]
  field_simp
end sweep

theorem det_fwd (A : SpMat ℝ) (w : ℝ) : (swN A w (fun i j => j < i)).det = (∏ i : Fin A.n, coef A i i) ∧
    (swM A w (fun i j => j < i)).det = ∏ i : Fin A.n, (1 - w) * coef A i i := by
  constructor
  · rw [Matrix.det_of_lowerTriangular]
    · exact Finset.prod_congr rfl fun i _ => by simp [swN]
    · intro i j hij
      have hij : i < j := hij
      simp [swN, not_lt_of_gt hij, hij.ne]
  · rw [Matrix.det_of_upperTriangular]
    · exact Finset.prod_congr rfl fun i _ => by simp [swM]
    · intro i j hij
      have hij : j < i := hij
      simp [swM, hij]

theorem det_bwd (A : SpMat ℝ) (w : ℝ) : (swN A w (fun i j => i < j)).det = (∏ i : Fin A.n, coef A i i) ∧
    (swM A w (fun i j => i < j)).det = ∏ i : Fin A.n, (1 - w) * coef A i i := by
  constructor
  · rw [Matrix.det_of_upperTriangular]
    · exact Finset.prod_congr rfl fun i _ => by simp [swN]
    · intro i j hij
      have hij : j < i := hij
      simp [swN, not_lt_of_gt hij, hij.ne']
  · rw [Matrix.det_of_lowerTriangular]
    · exact Finset.prod_congr rfl fun i _ => by simp [swM]
    · intro i j hij
      have hij : i < j := hij
      simp [swM, hij]

/-- The error propagation of the two sweeps. -/
noncomputable def propF (A : SpMat ℝ) (w : ℝ) := (swN A w (fun i j => j < i))⁻¹ * swM A w (fun i j => j < i)
noncomputable def propB (A : SpMat ℝ) (w : ℝ) := (swN A w (fun i j => i < j))⁻¹ * swM A w (fun i j => i < j)

section
variable (hβ : ∀ a x, β.act a x = a * x) (hS : A.Sorted) (hG : A.HasDiag) (hC : A.Square) (hI : A.DiagInvertible β.act)
include hβ hS hG hC hI

omit hC in
theorem diag_ne (i : Fin A.n) : coef A i i ≠ 0 := by
  obtain ⟨a, ha⟩ := hG i i.2
  rw [coef_diag hS i.2 ha]
  rintro rfl
  have := (hI i i.2 0 ha).1 (show β.act 0 0 = β.act 0 1 by rw [hβ, hβ]; ring)
  exact zero_ne_one this

theorem fwd_prop (w : ℝ) {e v v' : Nat → ℝ} (h : bsorf β.act (solveLoc β) w A (fun i => A.apply β.act e i) v = .ok v') :
    headV A.n (fun i => e i - v' i) = propF A w *ᵥ headV A.n (fun i => e i - v i) := by
  refine sweep_prop A w (fun i j => j < i) ?_ (fun i => lt_irrefl i) fun i => ?_
  · rw [(det_fwd A w).1]; exact Finset.prod_ne_zero_iff.2 fun i _ => diag_ne hβ hS hG hI i
  · obtain ⟨a, ha⟩ := hG i i.2
    have := C25_bsorf β w (fun a x => by rw [hβ, hβ]; simp only [smul_eq_mul]; ring) A hS hG _ v v' h i i.2 a ha
    rw [hβ, ← coef_diag hS i.2 ha, smul_eq_mul, partSum_real hβ hC i.2, partSum_real hβ hC i.2] at this
    have e0 : A.apply β.act e i = ∑ j : Fin A.n, coef A i j * e j := by
      change A.partSum β.act _ e i = _
      rw [partSum_real hβ hC i.2]; simp
    have e2 : (∑ j : Fin A.n, if ¬ ((j : Nat) < i) then coef A i j * v j else 0) = ∑ j : Fin A.n, if j < i then 0 else coef A i j * v j :=
      Finset.sum_congr rfl fun j _ => by by_cases hp : j < i <;> simp [hp]
    rw [this, e0, e2]
    rfl

theorem bwd_prop (w : ℝ) {e v v' : Nat → ℝ} (h : bsorb β.act (solveLoc β) w A (fun i => A.apply β.act e i) v = .ok v') :
    headV A.n (fun i => e i - v' i) = propB A w *ᵥ headV A.n (fun i => e i - v i) := by
  refine sweep_prop A w (fun i j => i < j) ?_ (fun i => lt_irrefl i) fun i => ?_
  · rw [(det_bwd A w).1]; exact Finset.prod_ne_zero_iff.2 fun i _ => diag_ne hβ hS hG hI i
  · obtain ⟨a, ha⟩ := hG i i.2
    have := C25_bsorb β w (fun a x => by rw [hβ, hβ]; simp only [smul_eq_mul]; ring) A hS hG _ v v' h i i.2 a ha
    rw [hβ, ← coef_diag hS i.2 ha, smul_eq_mul, partSum_real hβ hC i.2, partSum_real hβ hC i.2] at this
    have e0 : A.apply β.act e i = ∑ j : Fin A.n, coef A i j * e j := by
      change A.partSum β.act _ e i = _
      rw [partSum_real hβ hC i.2]; simp
    have e2 : (∑ j : Fin A.n, if ¬ ((i : Nat) < j) then coef A i j * v j else 0) = ∑ j : Fin A.n, if i < j then 0 else coef A i j * v j :=
      Finset.sum_congr rfl fun j _ => by by_cases hp : i < j <;> simp [hp]
    rw [this, e0, e2]
    rfl

/-- The error propagation of `apply` for `SeqSOR` and `SeqSSOR`, and its determinant. -/
theorem prec_prop (tr : ℝ → ℝ) (nid : ℝ → Bool) (k : Nat) (w : ℝ) (P : Prec.Obj ℝ ℝ) (hP : P = .sor A k w ∨ P = .ssor A k w) :
    ∃ (T : Matrix (Fin A.n) (Fin A.n) ℝ) (m : Nat), (0 < A.n → 0 < k → 0 < m) ∧ T.det = (1 - w) ^ m ∧
      ∀ e y, Prec.apply β tr nid P 0 (fun i => A.apply β.act e i) = .ok (P, y) → headV A.n (fun i => e i - y i) = T *ᵥ headV A.n e := by
  have h0 := fun i => diag_ne hβ hS hG hI i
  have dF : (propF A w).det = (1 - w) ^ A.n := sweep_det A w _ (det_fwd A w).1 (det_fwd A w).2 h0
  have dB : (propB A w).det = (1 - w) ^ A.n := sweep_det A w _ (det_bwd A w).1 (det_bwd A w).2 h0
  have it : ∀ (T : Matrix (Fin A.n) (Fin A.n) ℝ) (f : (Nat → ℝ) → Res (Nat → ℝ)) (e : Nat → ℝ),
      (∀ v v', f v = .ok v' → headV A.n (fun i => e i - v' i) = T *ᵥ headV A.n (fun i => e i - v i)) → ∀ y, iterate k f 0 = .ok y →
      headV A.n (fun i => e i - y i) = (T ^ k) *ᵥ headV A.n e := by
    intro T f e hf y hy
    obtain ⟨x, x0, xn, hx⟩ := iterate_seq k f 0 y hy
    have : ∀ j, j ≤ k → headV A.n (fun i => e i - x j i) = (T ^ j) *ᵥ headV A.n e := by
      intro j
      induction j with
      | zero => intro _; rw [x0, pow_zero, Matrix.one_mulVec]; funext i; simp [headV]
      | succ j ih => intro hj; rw [hf _ _ (hx j (by omega)), ih (by omega), Matrix.mulVec_mulVec, pow_succ']
    rw [← xn]; exact this k le_rfl
  rcases hP with rfl | rfl
  · refine ⟨propF A w ^ k, A.n * k, fun h1 h2 => Nat.mul_pos h1 h2, by rw [Matrix.det_pow, dF, ← pow_mul], fun e y h => ?_⟩
    dsimp only [Prec.apply, sorDir] at h
    rw [if_pos rfl] at h
    obtain ⟨v, h1, h2⟩ := Res.bind_eq_ok.1 h
    injection h2 with h2; injection h2 with _ h2
    rw [← h2]
    exact it (propF A w) _ e (fun v v' hv => fwd_prop hβ hS hG hC hI w hv) v h1
  · refine ⟨(propB A w * propF A w) ^ k, (A.n + A.n) * k, fun h1 h2 => Nat.mul_pos (by omega) h2,
      by rw [Matrix.det_pow, Matrix.det_mul, dF, dB, ← pow_add, ← pow_mul], fun e y h => ?_⟩
    dsimp only [Prec.apply] at h
    obtain ⟨v, h1, h2⟩ := Res.bind_eq_ok.1 h
    injection h2 with h2; injection h2 with _ h2
    rw [← h2]
    refine it (propB A w * propF A w) _ e (fun v v' hv => ?_) v h1
    unfold ssorStep at hv
    obtain ⟨v1, k1, k2⟩ := Res.bind_eq_ok.1 hv
    rw [bwd_prop hβ hS hG hC hI w k2, fwd_prop hβ hS hG hC hI w k1, Matrix.mulVec_mulVec]

end

/-- Powers that tend to zero on every vector have a determinant below one. -/
theorem det_lt_one {n : Nat} (hn : 0 < n) (T : Matrix (Fin n) (Fin n) ℝ) (h : ∀ v : Fin n → ℝ, ∀ i, Tendsto (fun j => ((T ^ j) *ᵥ v) i) atTop (𝓝 0)) :
    |T.det| < 1 := by
  have h1 : Tendsto (fun j => T ^ j) atTop (𝓝 (0 : Matrix (Fin n) (Fin n) ℝ)) := by
    refine tendsto_pi_nhds.2 fun i => tendsto_pi_nhds.2 fun l => ?_
    have := h (Pi.single l 1) i
    simpa [Matrix.mulVec_single_one] using this
  have hc : Continuous fun M : Matrix (Fin n) (Fin n) ℝ => M.det := Continuous.matrix_det continuous_id
  have h2 : Tendsto (fun j => (T ^ j).det) atTop (𝓝 ((0 : Matrix (Fin n) (Fin n) ℝ).det)) := (hc.tendsto 0).comp h1
  haveI : Nonempty (Fin n) := ⟨⟨0, hn⟩⟩
  rw [Matrix.det_zero] at h2
  simp only [Matrix.det_pow] at h2
  by_contra hlt
  have h3 := h2.abs
  rw [abs_zero] at h3
  obtain ⟨j, hj⟩ := (h3.eventually (gt_mem_nhds (show (0 : ℝ) < 1 by norm_num))).exists
  rw [abs_pow] at hj
  exact absurd (one_le_pow₀ (not_lt.1 hlt) (n := j)) (not_le.2 hj)

end Istl

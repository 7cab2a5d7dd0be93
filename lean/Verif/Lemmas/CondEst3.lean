import Verif.Lemmas.CondEst2

/-! # CG as a Lanczos method -/

namespace Istl
namespace Solver
open Arpack Finset

variable {Rl X : Type} [AddCommGroup X] [Module ℝ X] [Mul Rl] [Zero Rl]
variable {E : Env ℝ Rl X} {g : LinearMap.BilinForm ℝ X} {A B : X →ₗ[ℝ] X} {x b : X}

/-- The scaled residuals. -/
noncomputable def lancS (E : Env ℝ Rl X) (x b : X) (d : Rl) (k : Nat) : X :=
  ((-1) ^ k / Real.sqrt (cgState E x b d k).rholast) • (cgState E x b d k).b

/-- What is known about the first `k + 1` passes with residuals that are not zero. -/
structure Steps (E : Env ℝ Rl X) (g : LinearMap.BilinForm ℝ X) (A B : X →ₗ[ℝ] X) (x b : X) (k : Nat) : Prop where
  orth : CgOrth E g A B x b (E.norm b) k
  zero : ∀ j, j ≤ k → E.isZero (cgState E x b (E.norm b) j).d = false
  rho : ∀ j, j ≤ k → 0 < (cgState E x b (E.norm b) j).rholast
  pAp : ∀ j, j ≤ k → 0 < g (cgState E x b (E.norm b) j).p (A (cgState E x b (E.norm b) j).p)

theorem steps (h : Symmetric E g A B) (hp : PosDef g A B) (hz : ∀ y, E.isZero (E.norm y) = true ↔ y = 0) {k : Nat}
    (hne : ∀ j, j ≤ k → (cgState E x b (E.norm b) j).b ≠ 0) : Steps E g A B x b k := by
  have nb := cg_noBreakdown (x := x) (b := b) h hp hz k hne
  have O := cg_orth (x := x) (b := b) (d := E.norm b) h k (fun j hj => (nb j (by omega)).1) (nb k (le_refl _)).1.1
  exact ⟨O, fun j hj => (nb j hj).1.1, fun j hj => by rw [O.rho j hj]; exact hp.B _ (hne j hj), fun j hj => hp.A _ (nb j hj).2⟩

theorem step_b (h : Symmetric E g A B) {k : Nat} (S : Steps E g A B x b k) {j : Nat} (hj : j ≤ k) :
    (cgState E x b (E.norm b) (j + 1)).b = (cgState E x b (E.norm b) j).b - lamOf E g A x b (E.norm b) j • A (cgState E x b (E.norm b) j).p := by
  obtain ⟨lam, hl, _, hb, _⟩ := cg_rec (x := x) (b := b) (d := E.norm b) h j (S.zero j hj)
  rw [hb, hl]; rfl

theorem step_p (h : Symmetric E g A B) {k : Nat} (S : Steps E g A B x b k) {j : Nat} (hj : j < k) :
    (cgState E x b (E.norm b) (j + 1)).p = B (cgState E x b (E.norm b) (j + 1)).b + betOf E x b (E.norm b) j • (cgState E x b (E.norm b) j).p := by
  obtain ⟨lam, hl, _, hb, _, _, be, hbe, hpp⟩ := cg_rec (x := x) (b := b) (d := E.norm b) h j (S.zero j (by omega))
  rw [hpp, hbe (S.zero (j + 1) (by omega))]; rfl

theorem lam_pos {k : Nat} (S : Steps E g A B x b k) {j : Nat} (hj : j ≤ k) : 0 < lamOf E g A x b (E.norm b) j :=
  div_pos (S.rho j hj) (S.pAp j hj)

/-- All residuals, also the next one, are orthogonal to the earlier preconditioned ones. -/
theorem next_orth (h : Symmetric E g A B) {k : Nat} (S : Steps E g A B x b k) :
    ∀ j, j ≤ k → g (B (cgState E x b (E.norm b) j).b) (cgState E x b (E.norm b) (k + 1)).b = 0 := by
  have hp : ∀ j, j ≤ k → g (cgState E x b (E.norm b) j).p (cgState E x b (E.norm b) (k + 1)).b = 0 := by
    intro j hj
    rw [step_b h S (le_refl k), map_sub, map_smul, smul_eq_mul]
    rcases Nat.lt_or_eq_of_le hj with hj | rfl
    · rw [S.orth.pr j k hj (le_refl _), S.orth.pAp j k hj (le_refl _)]; ring
    · rw [S.orth.prj j (le_refl _), lamOf, div_mul_cancel₀ _ (S.pAp j (le_refl _)).ne', sub_self]
  intro j hj
  cases j with
  | zero =>
    have := hp 0 hj
    rw [(cg_init (x := x) (b := b) (d := E.norm b) h).1] at this
    rw [(cg_init (x := x) (b := b) (d := E.norm b) h).2.2.1]
    exact this
  | succ j =>
    have e : B (cgState E x b (E.norm b) (j + 1)).b = (cgState E x b (E.norm b) (j + 1)).p - betOf E x b (E.norm b) j • (cgState E x b (E.norm b) j).p := by
      rw [step_p h S (by omega)]; abel
    rw [e, map_sub, map_smul, LinearMap.sub_apply, LinearMap.smul_apply, hp _ hj, hp _ (by omega)]
    simp

/-- `A B r_k` in terms of the residuals. -/
theorem three_terms (h : Symmetric E g A B) {k : Nat} (S : Steps E g A B x b k) {j : Nat} (hj : j ≤ k) :
    A (B (cgState E x b (E.norm b) j).b) =
      (1 / lamOf E g A x b (E.norm b) j) • ((cgState E x b (E.norm b) j).b - (cgState E x b (E.norm b) (j + 1)).b) -
      (if 0 < j then (betOf E x b (E.norm b) (j - 1) / lamOf E g A x b (E.norm b) (j - 1)) • ((cgState E x b (E.norm b) (j - 1)).b - (cgState E x b (E.norm b) j).b)
        else 0) := by
  have hA : ∀ i, i ≤ k → A (cgState E x b (E.norm b) i).p =
      (1 / lamOf E g A x b (E.norm b) i) • ((cgState E x b (E.norm b) i).b - (cgState E x b (E.norm b) (i + 1)).b) := by
    intro i hi
    rw [step_b h S hi, sub_sub_cancel, smul_smul, one_div, inv_mul_cancel₀ (lam_pos S hi).ne', one_smul]
  cases j with
  | zero =>
    rw [if_neg (by omega), sub_zero, ← hA 0 hj, (cg_init (x := x) (b := b) (d := E.norm b) h).1, (cg_init (x := x) (b := b) (d := E.norm b) h).2.2.1]
  | succ j =>
    have e : B (cgState E x b (E.norm b) (j + 1)).b = (cgState E x b (E.norm b) (j + 1)).p - betOf E x b (E.norm b) j • (cgState E x b (E.norm b) j).p := by
      rw [step_p h S (by omega)]; abel
    rw [e, map_sub, map_smul, hA _ hj, hA j (by omega), if_pos (by omega), Nat.add_sub_cancel, smul_smul, mul_one_div]

/-- The column sums of the tridiagonal matrix. -/
theorem sum_lancT (lam be : Nat → ℝ) (s : Nat → X) {i k : Nat} (hk : k < i) :
    ∑ j ∈ range i, lancT lam be j k • s j = (1 / lam k + (if 0 < k then be (k - 1) / lam (k - 1) else 0)) • s k +
      (if 0 < k then (Real.sqrt (be (k - 1)) / lam (k - 1)) • s (k - 1) else 0) +
      if k + 1 < i then (Real.sqrt (be k) / lam k) • s (k + 1) else 0 := by
  unfold lancT
  simp only [add_smul, sum_add_distrib, ite_smul, zero_smul]
  congr 1
  · congr 1
    · rw [sum_ite_eq' (range i) k, if_pos (mem_range.mpr hk)]
    · cases k with
      | zero => simp
      | succ k =>
        simp only [Nat.add_right_cancel_iff, Nat.succ_pos, if_true, Nat.add_sub_cancel]
        rw [sum_ite_eq' (range i) k, if_pos (mem_range.mpr (by omega))]
  · rw [sum_ite_eq' (range i) (k + 1)]
    simp only [mem_range]

/-- **Lanczos**: `A B s_k = Σ_j T_jk s_j`, and one more term in the last column. -/
theorem lanczos (h : Symmetric E g A B) {n : Nat} (S : Steps E g A B x b n) {k : Nat} (hk : k ≤ n) :
    A (B (lancS E x b (E.norm b) k)) =
      ∑ j ∈ range (n + 1), lancT (lamOf E g A x b (E.norm b)) (betOf E x b (E.norm b)) j k • lancS E x b (E.norm b) j +
      if k = n then (-((-1) ^ k / Real.sqrt (cgState E x b (E.norm b) k).rholast / lamOf E g A x b (E.norm b) k)) • (cgState E x b (E.norm b) (n + 1)).b else 0 := by
  rw [sum_lancT _ _ _ (by omega)]
  unfold lancS
  rw [map_smul, map_smul, three_terms h S hk]
  have sq : ∀ j, j ≤ n → 0 < Real.sqrt (cgState E x b (E.norm b) j).rholast := fun j hj => Real.sqrt_pos.mpr (S.rho j hj)
  have hsb : ∀ j, j < n → Real.sqrt (betOf E x b (E.norm b) j) =
      Real.sqrt (cgState E x b (E.norm b) (j + 1)).rholast / Real.sqrt (cgState E x b (E.norm b) j).rholast := by
    intro j hj
    unfold betOf
    rw [Real.sqrt_div (S.rho (j + 1) (by omega)).le]
  have hb2 : ∀ j, j < n → betOf E x b (E.norm b) j =
      Real.sqrt (cgState E x b (E.norm b) (j + 1)).rholast ^ 2 / Real.sqrt (cgState E x b (E.norm b) j).rholast ^ 2 := by
    intro j hj
    unfold betOf
    rw [Real.sq_sqrt (S.rho (j + 1) (by omega)).le, Real.sq_sqrt (S.rho j (by omega)).le]
  -- the next residual
  have up : ((-1 : ℝ) ^ k / Real.sqrt (cgState E x b (E.norm b) k).rholast) • (1 / lamOf E g A x b (E.norm b) k) • (cgState E x b (E.norm b) (k + 1)).b =
      -((if k + 1 < n + 1 then (Real.sqrt (betOf E x b (E.norm b) k) / lamOf E g A x b (E.norm b) k) •
          ((-1 : ℝ) ^ (k + 1) / Real.sqrt (cgState E x b (E.norm b) (k + 1)).rholast) • (cgState E x b (E.norm b) (k + 1)).b else 0) +
        if k = n then (-((-1) ^ k / Real.sqrt (cgState E x b (E.norm b) k).rholast / lamOf E g A x b (E.norm b) k)) • (cgState E x b (E.norm b) (n + 1)).b else 0) := by
    by_cases hkn : k = n
    · subst hkn
      rw [if_neg (by omega), if_pos rfl, zero_add, smul_smul, neg_smul, neg_neg, mul_one_div]
    · rw [if_pos (by omega), if_neg hkn, add_zero, smul_smul, smul_smul, ← neg_smul]
      congr 1
      rw [hsb k (by omega)]
      have h1 := (sq k hk).ne'
      have h2 := (sq (k + 1) (by omega)).ne'
      have h3 := (lam_pos S hk).ne'
      rw [pow_succ]
      field_simp
  cases k with
  | zero =>
    simp only [Nat.lt_irrefl, if_false, sub_zero, add_zero]
    rw [smul_sub, smul_sub, up, smul_comm ((-1 : ℝ) ^ 0 / Real.sqrt (cgState E x b (E.norm b) 0).rholast) (1 / lamOf E g A x b (E.norm b) 0)]
    abel
  | succ k =>
    have h1 := (sq k (by omega)).ne'
    have h2 := (sq (k + 1) hk).ne'
    have h3 := (lam_pos S (show k ≤ n by omega)).ne'
    simp only [Nat.succ_pos, if_true, Nat.add_sub_cancel]
    have dn : ((-1 : ℝ) ^ (k + 1) / Real.sqrt (cgState E x b (E.norm b) (k + 1)).rholast) • (betOf E x b (E.norm b) k / lamOf E g A x b (E.norm b) k) •
        (cgState E x b (E.norm b) k).b = -((Real.sqrt (betOf E x b (E.norm b) k) / lamOf E g A x b (E.norm b) k) •
          ((-1 : ℝ) ^ k / Real.sqrt (cgState E x b (E.norm b) k).rholast) • (cgState E x b (E.norm b) k).b) := by
      rw [smul_smul, smul_smul, ← neg_smul]
      congr 1
      rw [hsb k (by omega), hb2 k (by omega), pow_succ]
      field_simp
    rw [smul_sub, smul_sub, smul_sub, smul_sub, smul_sub, up, dn, add_smul,
      smul_comm ((-1 : ℝ) ^ (k + 1) / Real.sqrt (cgState E x b (E.norm b) (k + 1)).rholast) (1 / lamOf E g A x b (E.norm b) (k + 1)),
      smul_comm ((-1 : ℝ) ^ (k + 1) / Real.sqrt (cgState E x b (E.norm b) (k + 1)).rholast) (betOf E x b (E.norm b) k / lamOf E g A x b (E.norm b) k)
        (cgState E x b (E.norm b) (k + 1)).b]
    abel

/-- The scaled residuals are orthonormal with respect to the preconditioner. -/
theorem lancS_orth (h : Symmetric E g A B) {n : Nat} (S : Steps E g A B x b n) {j k : Nat} (hj : j ≤ n) (hk : k ≤ n) :
    g (B (lancS E x b (E.norm b) j)) (lancS E x b (E.norm b) k) = if j = k then 1 else 0 := by
  unfold lancS
  simp only [map_smul, LinearMap.smul_apply, smul_eq_mul]
  rcases Nat.lt_trichotomy j k with hjk | rfl | hjk
  · rw [S.orth.zr j k hjk hk, if_neg (by omega)]; ring
  · rw [← S.orth.rho j hj, if_pos rfl]
    have h1 := Real.sqrt_pos.mpr (S.rho j hj)
    have h2 := Real.sq_sqrt (S.rho j hj).le
    have h3 : ((-1 : ℝ) ^ j) * (-1) ^ j = 1 := by rw [← mul_pow]; norm_num
    field_simp
    nlinarith [h2, h3]
  · rw [h.adjB, h.comm, S.orth.zr k j hjk hj, if_neg (by omega)]; ring

/-- An eigenvector of the tridiagonal matrix as a vector `u`: `A B u = θ u` up to a multiple of the last residual, `<Bu,u> > 0`, and `<Bu,r> = 0`
for the last residual. -/
theorem ritz (h : Symmetric E g A B) {n : Nat} (S : Steps E g A B x b n) {th : ℝ} {y : Nat → ℝ}
    (hy : IsEig (n + 1) (mulVec (n + 1) (lancT (lamOf E g A x b (E.norm b)) (betOf E x b (E.norm b)))) th y) :
    ∃ (u : X) (c : ℝ), A (B u) = th • u + c • (cgState E x b (E.norm b) (n + 1)).b ∧ 0 < g (B u) u ∧
      g (B u) (cgState E x b (E.norm b) (n + 1)).b = 0 := by
  obtain ⟨⟨i0, hi0, hne⟩, he⟩ := hy
  refine ⟨∑ k ∈ range (n + 1), y k • lancS E x b (E.norm b) k,
    y n * (-((-1) ^ n / Real.sqrt (cgState E x b (E.norm b) n).rholast / lamOf E g A x b (E.norm b) n)), ?_, ?_, ?_⟩
  · simp only [map_sum, map_smul]
    rw [sum_congr rfl (fun k hk => by rw [lanczos h S (show k ≤ n by have := mem_range.mp hk; omega)])]
    simp only [smul_add, sum_add_distrib, smul_sum]
    congr 1
    · rw [sum_comm]
      refine sum_congr rfl (fun j hj => ?_)
      rw [smul_smul, ← he j (mem_range.mp hj), mulVec, sum_smul]
      refine sum_congr rfl (fun k _ => ?_)
      rw [smul_smul, mul_comm]
    · rw [sum_eq_single n]
      · rw [if_pos rfl, smul_smul]
      · intro k _ hk
        rw [if_neg hk, smul_zero]
      · intro hn
        exact absurd (mem_range.mpr (by omega)) hn
  · have : g (B (∑ k ∈ range (n + 1), y k • lancS E x b (E.norm b) k)) (∑ k ∈ range (n + 1), y k • lancS E x b (E.norm b) k) =
        ∑ k ∈ range (n + 1), y k * y k := by
      simp only [map_sum, map_smul, LinearMap.sum_apply, LinearMap.smul_apply, smul_eq_mul]
      refine sum_congr rfl (fun k hk => ?_)
      rw [sum_eq_single k]
      · rw [lancS_orth h S (by have := mem_range.mp hk; omega) (by have := mem_range.mp hk; omega), if_pos rfl, mul_one]
      · intro j hj hjk
        rw [lancS_orth h S (by have := mem_range.mp hj; omega) (by have := mem_range.mp hk; omega), if_neg hjk]; ring
      · intro hn; exact absurd hk hn
    rw [this]
    exact sum_pos' (fun k _ => mul_self_nonneg _) ⟨i0, mem_range.mpr hi0, mul_self_pos.mpr hne⟩
  · simp only [map_sum, map_smul, LinearMap.sum_apply, LinearMap.smul_apply]
    refine sum_eq_zero (fun k hk => ?_)
    unfold lancS
    rw [map_smul, map_smul, LinearMap.smul_apply, next_orth h S k (by have := mem_range.mp hk; omega), smul_zero, smul_zero]

end Solver
end Istl

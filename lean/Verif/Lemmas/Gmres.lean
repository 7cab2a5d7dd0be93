import Verif.Lemmas.Rotation
import Verif.Lemmas.SpMat
import Mathlib.Analysis.InnerProductSpace.Basic
import Mathlib.Algebra.BigOperators.Intervals

/-! # The Arnoldi process and the small least squares problem of GMRes -/

namespace Istl
namespace Solver

open Finset

/-! ## Back substitution -/

section Back
variable {K X : Type} [Field K] [DecidableEq K]

theorem foldl_sub_range (f : Nat → K) (r : K) (n : Nat) :
    (List.range n).foldl (fun r t => r - f t) r = r - ∑ t ∈ range n, f t := by
  induction n with
  | zero => simp
  | succ n ih => rw [List.range_succ, List.foldl_append, ih, sum_range_succ]; simp; ring

/-- Row `a` of the triangular system. -/
def TriRow (i : Nat) (H : Nat → Nat → K) (s y : Nat → K) (a : Nat) : Prop := ∑ b ∈ Ico a i, H a b * y b = s a

theorem backSubst_row (i : Nat) (H : Nat → Nat → K) (s : Nat → K) (hd : ∀ a, a < i → H a a ≠ 0) :
    ∀ a, a < i → TriRow i H s (backSubst i H s) a := by
  have key : ∀ n, n ≤ i → ∀ y0 : Nat → K, (∀ a, n ≤ a → a < i → TriRow i H s y0 a) →
      ∀ a, a < i → TriRow i H s (forDown n (fun a y =>
        let rhs := (List.range (i - (a + 1))).foldl (fun rhs t => rhs - H a (a + 1 + t) * y (a + 1 + t)) (s a)
        upd y a (if rhs = 0 then 0 else rhs / H a a)) y0) a := by
    intro n
    induction n with
    | zero => intro _ y0 h a ha; exact h a (Nat.zero_le _) ha
    | succ n ih =>
      intro hn y0 h
      rw [forDown_succ]
      refine ih (by omega) _ fun a ha hai => ?_
      dsimp only
      rw [foldl_sub_range (fun t => H n (n + 1 + t) * y0 (n + 1 + t)), ← sum_Ico_eq_sum_range (fun t => H n t * y0 t)]
      unfold TriRow
      rcases Nat.eq_or_lt_of_le ha with rfl | hlt
      · rw [sum_eq_sum_Ico_succ_bot hai, upd_same]
        have e : ∑ k ∈ Ico (n + 1) i, H n k * upd y0 n (if s n - ∑ t ∈ Ico (n + 1) i, H n t * y0 t = 0 then 0
            else (s n - ∑ t ∈ Ico (n + 1) i, H n t * y0 t) / H n n) k = ∑ k ∈ Ico (n + 1) i, H n k * y0 k := by
          refine sum_congr rfl fun k hk => ?_
          rw [upd_ne _ _ (by have := mem_Ico.1 hk; omega)]
        rw [e]
        split
        · rename_i h0; rw [mul_zero, zero_add]; exact (sub_eq_zero.1 h0).symm
        · field_simp [hd n hai]; ring
      · refine Eq.trans (sum_congr rfl fun k hk => ?_) (h a (by omega) hai)
        rw [upd_ne _ _ (by have := mem_Ico.1 hk; omega)]
  intro a ha
  exact key i (le_refl _) s (fun a h1 h2 => by omega) a ha

theorem gmUpdate_eq [AddCommGroup X] [Module K X] (i : Nat) (H : Nat → Nat → K) (s : Nat → K) (v : Nat → X) :
    gmUpdate i H s v = ∑ a ∈ range i, backSubst i H s a • v a := by
  unfold gmUpdate
  generalize backSubst i H s = y
  have key : ∀ n (w : X), forDown n (fun a w => w + y a • v a) w = w + ∑ a ∈ range n, y a • v a := by
    intro n
    induction n with
    | zero => intro w; simp
    | succ n ih => intro w; rw [forDown_succ, ih, sum_range_succ]; abel
  rw [key, zero_add]

end Back

/-! ## Sequences of rotations -/

section Rot
variable {𝕜 X : Type} [RCLike 𝕜] {E : Env 𝕜 ℝ X}

theorem rotateColumn_succ (cs : Nat → ℝ) (sn : Nat → 𝕜) (i : Nat) (u : Nat → 𝕜) :
    rotateColumn E cs sn (i + 1) u =
      upd (upd (rotateColumn E cs sn i u) i
        (applyRotation E (rotateColumn E cs sn i u i) (rotateColumn E cs sn i u (i + 1)) (cs i) (sn i)).1) (i + 1)
        (applyRotation E (rotateColumn E cs sn i u i) (rotateColumn E cs sn i u (i + 1)) (cs i) (sn i)).2 := by
  unfold rotateColumn
  rw [forRange_succ]

theorem rotateColumn_above (cs : Nat → ℝ) (sn : Nat → 𝕜) (i : Nat) (u : Nat → 𝕜) (k : Nat) (hk : i < k) :
    rotateColumn E cs sn i u k = u k := by
  induction i with
  | zero => rfl
  | succ i ih => rw [rotateColumn_succ, upd_ne _ _ (by omega), upd_ne _ _ (by omega), ih (by omega)]

theorem rotateColumn_congr {cs cs' : Nat → ℝ} {sn sn' : Nat → 𝕜} {i n : Nat} {u u' : Nat → 𝕜} (hi : i ≤ n)
    (hc : ∀ k, k < i → cs k = cs' k) (hs : ∀ k, k < i → sn k = sn' k) (hu : ∀ k, k ≤ n → u k = u' k) :
    ∀ k, k ≤ n → rotateColumn E cs sn i u k = rotateColumn E cs' sn' i u' k := by
  induction i with
  | zero => exact hu
  | succ i ih =>
    have ih := ih (by omega) (fun k hk => hc k (by omega)) (fun k hk => hs k (by omega))
    intro k hk
    rw [rotateColumn_succ, rotateColumn_succ, ih i (by omega), ih (i + 1) (by omega), hc i (by omega), hs i (by omega)]
    by_cases h1 : k = i + 1
    · rw [h1, upd_same, upd_same]
    · rw [upd_ne _ _ h1, upd_ne _ _ h1]
      by_cases h2 : k = i
      · rw [h2, upd_same, upd_same]
      · rw [upd_ne _ _ h2, upd_ne _ _ h2, ih k hk]

theorem rotateColumn_linear (cs : Nat → ℝ) (sn : Nat → 𝕜) (i : Nat) :
    ∃ L : (Nat → 𝕜) →ₗ[𝕜] (Nat → 𝕜), ∀ u, rotateColumn E cs sn i u = L u := by
  induction i with
  | zero => exact ⟨LinearMap.id, fun u => rfl⟩
  | succ i ih =>
    obtain ⟨L, hL⟩ := ih
    refine ⟨⟨⟨rotateColumn E cs sn (i + 1), fun u w => ?_⟩, fun c u => ?_⟩, fun u => rfl⟩
    · funext k
      simp only [rotateColumn_succ, hL, map_add, Pi.add_apply, applyRotation, upd]
      split
      · ring
      · split <;> [ring; rfl]
    · funext k
      simp only [rotateColumn_succ, hL, map_smul, Pi.smul_apply, smul_eq_mul, applyRotation, upd, RingHom.id_apply]
      split
      · ring
      · split <;> [ring; rfl]

theorem rotateColumn_norm (hE : ExactScalars E) (cs : Nat → ℝ) (sn : Nat → 𝕜) (i n : Nat) (hin : i ≤ n)
    (hu : ∀ k, k < i → UnitaryRot (cs k) (sn k)) (u : Nat → 𝕜) :
    ∑ k ∈ range (n + 1), ‖rotateColumn E cs sn i u k‖ ^ 2 = ∑ k ∈ range (n + 1), ‖u k‖ ^ 2 := by
  induction i with
  | zero => rfl
  | succ i ih =>
    rw [← ih (by omega) (fun k hk => hu k (by omega)), rotateColumn_succ]
    have hr := rotation_norm hE (cs i) (sn i) (rotateColumn E cs sn i u i) (rotateColumn E cs sn i u (i + 1)) (hu i (by omega))
    generalize rotateColumn E cs sn i u = w at hr ⊢
    generalize applyRotation E (w i) (w (i + 1)) (cs i) (sn i) = r at hr ⊢
    have m1 : i ∈ range (n + 1) := mem_range.2 (by omega)
    have m2 : i + 1 ∈ (range (n + 1)).erase i := mem_erase.2 ⟨by omega, mem_range.2 (by omega)⟩
    rw [← add_sum_erase _ _ m1, ← add_sum_erase _ _ m2, ← add_sum_erase _ (fun k => ‖w k‖ ^ 2) m1,
      ← add_sum_erase _ (fun k => ‖w k‖ ^ 2) m2]
    rw [upd_same, upd_ne _ _ (by omega), upd_same, ← add_assoc, ← add_assoc, hr]
    congr 1
    refine sum_congr rfl fun k hk => ?_
    have h1 := (mem_erase.1 hk).1
    have h2 := (mem_erase.1 (mem_erase.1 hk).2).1
    rw [upd_ne _ _ h1, upd_ne _ _ h2]

end Rot

/-! ## Orthonormal bases and Gram-Schmidt -/

section Arnoldi
variable {𝕜 X : Type} [RCLike 𝕜] [NormedAddCommGroup X] [InnerProductSpace 𝕜 X] {E : Env 𝕜 ℝ X}

local notation "⟪" x ", " y "⟫" => inner 𝕜 x y

/-- `v 0, ..., v i` are orthonormal. -/
def OrthoUpTo (𝕜 : Type) {X : Type} [RCLike 𝕜] [NormedAddCommGroup X] [InnerProductSpace 𝕜 X] (i : Nat) (v : Nat → X) : Prop :=
  ∀ a b, a ≤ i → b ≤ i → (inner 𝕜 (v a) (v b) : 𝕜) = if a = b then 1 else 0

theorem ortho_norm {v : Nat → X} : ∀ (i : Nat), OrthoUpTo 𝕜 i v → ∀ u : Nat → 𝕜,
    ‖∑ k ∈ range (i + 1), u k • v k‖ ^ 2 = ∑ k ∈ range (i + 1), ‖u k‖ ^ 2 := by
  have hv : ∀ {i} k, OrthoUpTo 𝕜 i v → k ≤ i → ‖v k‖ = 1 := by
    intro i k ho hk
    have := ho k k hk hk
    rw [if_pos rfl, inner_self_eq_norm_sq_to_K] at this
    have h1 : ‖v k‖ ^ 2 = 1 := by exact_mod_cast this
    nlinarith [norm_nonneg (v k), sq_nonneg (‖v k‖ - 1)]
  intro i
  induction i with
  | zero => intro ho u; simp [norm_smul, hv 0 ho (le_refl _)]
  | succ i ih =>
    intro ho u
    have h0 : ⟪∑ k ∈ range (i + 1), u k • v k, u (i + 1) • v (i + 1)⟫ = 0 := by
      rw [sum_inner, sum_eq_zero]
      intro k hk
      have : k < i + 1 := mem_range.1 hk
      rw [inner_smul_left, inner_smul_right, ho k (i + 1) (by omega) (le_refl _), if_neg (by omega)]
      ring
    rw [sum_range_succ, @norm_add_sq 𝕜, ih (fun a b ha hb => ho a b (by omega) (by omega)), sum_range_succ _ (i + 1), h0,
      norm_smul, hv (i + 1) ho (le_refl _)]
    simp

theorem gramSchmidt_spec (hdot : ∀ x y, E.dot x y = ⟪x, y⟫) (v : Nat → X) (i : Nat) (ho : OrthoUpTo 𝕜 i v) (w : X) (col : Nat → 𝕜) :
    w = ∑ k ∈ range (i + 1), (gramSchmidt E v i w col).2 k • v k + (gramSchmidt E v i w col).1 ∧
    (∀ k, k ≤ i → ⟪v k, (gramSchmidt E v i w col).1⟫ = 0) ∧ (∀ k, i < k → (gramSchmidt E v i w col).2 k = col k) := by
  unfold gramSchmidt
  have key : ∀ n, n ≤ i + 1 →
      let g := forRange n (fun k wc => let h := E.dot (v k) wc.1; (wc.1 + (-h) • v k, upd wc.2 k h)) (w, col)
      w = ∑ k ∈ range n, g.2 k • v k + g.1 ∧ (∀ k, k < n → ⟪v k, g.1⟫ = 0) ∧ (∀ k, n ≤ k → g.2 k = col k) := by
    intro n
    induction n with
    | zero => intro _; simp
    | succ n ih =>
      intro hn
      obtain ⟨h1, h2, h3⟩ := ih (by omega)
      rw [forRange_succ]
      generalize forRange n (fun k wc => let h := E.dot (v k) wc.1; (wc.1 + (-h) • v k, upd wc.2 k h)) (w, col) = g at h1 h2 h3
      dsimp only
      rw [hdot]
      refine ⟨?_, fun k hk => ?_, fun k hk => ?_⟩
      · rw [sum_range_succ, upd_same]
        rw [sum_congr rfl (g := fun k => g.2 k • v k) fun k hk => by rw [upd_ne _ _ (by have := mem_range.1 hk; omega)]]
        conv_lhs => rw [h1]
        rw [neg_smul]; abel
      · rw [inner_add_right, inner_smul_right, ho k n (by omega) (by omega)]
        by_cases hkn : k = n
        · subst hkn; simp
        · rw [h2 k (by omega), if_neg hkn]; simp
      · rw [upd_ne _ _ (by omega), h3 k (by omega)]
  obtain ⟨h1, h2, h3⟩ := key (i + 1) (le_refl _)
  exact ⟨h1, fun k hk => h2 k (by omega), fun k hk => h3 k (by omega)⟩

/-- What the state knows after `i` passes of the inner loop: `r0` the residual at the start of the cycle, `T (y b)` the vectors whose
combination is subtracted from it. -/
structure Arn (E : Env 𝕜 ℝ X) (T : X →ₗ[𝕜] X) (m : Nat) (r0 : X) (i : Nat) (st : GmSt 𝕜 X ℝ) : Prop where
  ortho : OrthoUpTo 𝕜 i st.v
  first : r0 = (‖r0‖ : 𝕜) • st.v 0
  uni : ∀ k, k < i → UnitaryRot (st.cs k) (st.sn k)
  s : ∀ a, a ≤ i → st.s a = rotateColumn E st.cs st.sn i (fun k => if k = 0 then (‖r0‖ : 𝕜) else 0) a
  cols : ∀ b, b < i → ∃ col : Nat → 𝕜, (∀ k, b + 1 < k → col k = 0) ∧ col (b + 1) ≠ 0 ∧ T (st.y b) = ∑ k ∈ range (b + 2), col k • st.v k ∧
    (∀ a, a ≤ i → rotateColumn E st.cs st.sn i col a = if a ≤ b then st.H a b else 0)
  diag : ∀ b, b < i → st.H b b ≠ 0
  tail : ∀ a, i < a → a ≤ m → st.s a = 0
  norm : st.norm = ‖st.s i‖

/-- The least squares problem in triangular form. -/
theorem Arn.resid {T : X →ₗ[𝕜] X} {m : Nat} {r0 : X} {i : Nat} {st : GmSt 𝕜 X ℝ} (hE : ExactScalars E) (h : Arn E T m r0 i st)
    (c : Nat → 𝕜) :
    ‖r0 - ∑ b ∈ range i, c b • T (st.y b)‖ ^ 2 =
      ∑ a ∈ range i, ‖st.s a - ∑ b ∈ Ico a i, st.H a b * c b‖ ^ 2 + ‖st.s i‖ ^ 2 := by
  choose! col hc0 _ hc1 hc2 using h.cols
  obtain ⟨L, hL⟩ := rotateColumn_linear (E := E) st.cs st.sn i
  let e : Nat → 𝕜 := fun k => if k = 0 then (‖r0‖ : 𝕜) else 0
  let u : Nat → 𝕜 := e - ∑ b ∈ range i, c b • col b
  have hu : r0 - ∑ b ∈ range i, c b • T (st.y b) = ∑ k ∈ range (i + 1), u k • st.v k := by
    have h1 : ∑ k ∈ range (i + 1), e k • st.v k = r0 := by
      rw [sum_range_succ']
      simp only [e, Nat.add_eq_zero_iff, one_ne_zero, and_false, if_false, zero_smul, sum_const_zero, zero_add, if_true]
      exact h.first.symm
    have h2 : ∑ k ∈ range (i + 1), (∑ b ∈ range i, c b • col b) k • st.v k = ∑ b ∈ range i, c b • T (st.y b) := by
      simp only [Finset.sum_apply, sum_smul]
      rw [sum_comm]
      refine sum_congr rfl fun b hb => ?_
      have hb' := mem_range.1 hb
      rw [hc1 b hb', smul_sum]
      have : range (b + 2) ⊆ range (i + 1) := range_subset_range.2 (by omega)
      rw [← sum_subset this]
      · refine sum_congr rfl fun k _ => ?_
        rw [Pi.smul_apply, smul_eq_mul, mul_smul]
      · intro k _ hk
        rw [Pi.smul_apply, hc0 b hb' k (by have := mt mem_range.2 hk; omega), smul_zero, zero_smul]
    simp only [u, Pi.sub_apply, sub_smul, sum_sub_distrib]
    rw [h1, h2]
  rw [hu, ortho_norm i h.ortho, ← rotateColumn_norm hE st.cs st.sn i i (le_refl _) h.uni, sum_range_succ]
  have hrow : ∀ a, a ≤ i → rotateColumn E st.cs st.sn i u a = st.s a - ∑ b ∈ Ico a i, st.H a b * c b := by
    intro a ha
    have hexp : rotateColumn E st.cs st.sn i u a =
        rotateColumn E st.cs st.sn i e a - ∑ b ∈ range i, c b * rotateColumn E st.cs st.sn i (col b) a := by
      simp only [hL]
      simp only [u, map_sub, map_sum, map_smul, Pi.sub_apply, Finset.sum_apply, Pi.smul_apply, smul_eq_mul]
    rw [hexp, h.s a ha]
    have hz : ∑ b ∈ range i, c b * rotateColumn E st.cs st.sn i (col b) a = ∑ b ∈ Ico a i, st.H a b * c b := by
      have h0 : ∑ b ∈ Ico 0 a, c b * rotateColumn E st.cs st.sn i (col b) a = 0 := by
        refine sum_eq_zero fun b hb => ?_
        have := mem_Ico.1 hb
        rw [hc2 b (by omega) a ha, if_neg (by omega), mul_zero]
      rw [range_eq_Ico, ← sum_Ico_consecutive _ (Nat.zero_le a) ha, h0, zero_add]
      refine sum_congr rfl fun b hb => ?_
      have := mem_Ico.1 hb
      rw [hc2 b this.2 a ha, if_pos this.1]; ring
    rw [hz]
  rw [hrow i (le_refl _), Ico_self, sum_empty, sub_zero]
  congr 1
  refine sum_congr rfl fun a ha => ?_
  rw [hrow a (by have := mem_range.1 ha; omega)]

/-- The correction computed by `update` solves the least squares problem, with remainder `norm`. -/
theorem Arn.update [DecidableEq 𝕜] {T : X →ₗ[𝕜] X} {m : Nat} {r0 : X} {i : Nat} {st : GmSt 𝕜 X ℝ} (hE : ExactScalars E)
    (h : Arn E T m r0 i st) :
    ‖r0 - T (gmUpdate i st.H st.s st.y)‖ = st.norm ∧
    ∀ c : Nat → 𝕜, st.norm ≤ ‖r0 - ∑ b ∈ range i, c b • T (st.y b)‖ := by
  have hn : 0 ≤ st.norm := by rw [h.norm]; exact norm_nonneg _
  constructor
  · rw [gmUpdate_eq, map_sum]
    simp only [map_smul]
    have := h.resid hE (backSubst i st.H st.s)
    have hz : ∑ a ∈ range i, ‖st.s a - ∑ b ∈ Ico a i, st.H a b * backSubst i st.H st.s b‖ ^ 2 = 0 := by
      refine sum_eq_zero fun a ha => ?_
      rw [show ∑ b ∈ Ico a i, st.H a b * backSubst i st.H st.s b = st.s a from backSubst_row i st.H st.s h.diag a (mem_range.1 ha)]
      simp
    rw [hz, zero_add, ← h.norm] at this
    exact (sq_eq_sq₀ (norm_nonneg _) hn).1 this
  · intro c
    have := h.resid hE c
    rw [← h.norm] at this
    have h2 : 0 ≤ ∑ a ∈ range i, ‖st.s a - ∑ b ∈ Ico a i, st.H a b * c b‖ ^ 2 := sum_nonneg fun _ _ => by positivity
    exact (sq_le_sq₀ hn (norm_nonneg _)).1 (by linarith)

/-- One pass: Gram-Schmidt of `T (y' i)`, normalisation, QR update. -/
theorem Arn.step {T : X →ₗ[𝕜] X} {m : Nat} {r0 : X} {i : Nat} {st : GmSt 𝕜 X ℝ} (hE : ExactScalars E)
    (hdot : ∀ x y, E.dot x y = ⟪x, y⟫) (h : Arn E T m r0 i st) (him : i + 1 ≤ m) (y' : Nat → X) (calls : Nat)
    (hy : ∀ b, b < i → y' b = st.y b) (col0 : Nat → 𝕜) (g : X × (Nat → 𝕜)) (hg : g = gramSchmidt E st.v i (T (y' i)) col0)
    (hne : g.1 ≠ 0) (st1 st' : GmSt 𝕜 X ℝ)
    (h1 : st1 = { st with v := upd st.v (i + 1) (((1 : 𝕜) / (‖g.1‖ : 𝕜)) • g.1), y := y', calls := calls })
    (h' : st' = qrUpdate E i (upd g.2 (i + 1) (‖g.1‖ : 𝕜)) st1)
    (hclear : st'.H (i + 1) i = 0) : Arn E T m r0 (i + 1) st' := by
  obtain ⟨g1, g2, g3⟩ := gramSchmidt_spec hdot st.v i h.ortho (T (y' i)) col0
  rw [← hg] at g1 g2 g3
  have hgn : (‖g.1‖ : 𝕜) ≠ 0 := by rw [Ne, RCLike.ofReal_eq_zero]; exact norm_ne_zero_iff.2 hne
  -- names for the pieces of the new state
  generalize hcol : upd g.2 (i + 1) (‖g.1‖ : 𝕜) = col at h'
  have hcs : st1.cs = st.cs := by rw [h1]
  have hsn : st1.sn = st.sn := by rw [h1]
  have hss : st1.s = st.s := by rw [h1]
  have hHH : st1.H = st.H := by rw [h1]
  have hv1 : st'.v = upd st.v (i + 1) (((1 : 𝕜) / (‖g.1‖ : 𝕜)) • g.1) := by rw [h', h1]; rfl
  have hy1 : st'.y = y' := by rw [h', h1]; rfl
  obtain ⟨w, hw⟩ : ∃ w, w = rotateColumn E st.cs st.sn i col := ⟨_, rfl⟩
  obtain ⟨r, hr⟩ : ∃ r, r = planeRotation E E.conj (w i) (w (i + 1)) := ⟨_, rfl⟩
  obtain ⟨t, ht⟩ : ∃ t, t = applyRotation E (w i) (w (i + 1)) r.1 r.2 := ⟨_, rfl⟩
  obtain ⟨q, hq⟩ : ∃ q, q = applyRotation E (st.s i) (st.s (i + 1)) r.1 r.2 := ⟨_, rfl⟩
  have e1 : st'.cs = upd st.cs i r.1 := by rw [h', hr, hw, ← hcs, ← hsn]; rfl
  have e2 : st'.sn = upd st.sn i r.2 := by rw [h', hr, hw, ← hcs, ← hsn]; rfl
  have e3 : st'.H = setCol st.H i (upd (upd w i t.1) (i + 1) t.2) := by rw [h', ht, hr, hw, ← hcs, ← hsn, ← hHH]; rfl
  have e4 : st'.s = upd (upd st.s i q.1) (i + 1) q.2 := by rw [h', hq, hr, hw, ← hcs, ← hsn, ← hss]; rfl
  have e5 : st'.norm = ‖q.2‖ := by rw [h', hq, hr, hw, ← hcs, ← hsn, ← hss, ← hE.abs]; rfl
  have hu : UnitaryRot r.1 r.2 := by
    rw [hr]; exact unitary_of hE E.conj (fun z => by rw [hE.conj]; exact RCLike.norm_conj z) _ _
  have ht2 : t.2 = 0 := by
    have : setCol st.H i (upd (upd w i t.1) (i + 1) t.2) (i + 1) i = 0 := by rw [← e3]; exact hclear
    simpa [setCol] using this
  -- rotations up to `i` did not change
  have hrot : ∀ (u : Nat → 𝕜) k, rotateColumn E st'.cs st'.sn i u k = rotateColumn E st.cs st.sn i u k := by
    intro u k
    refine rotateColumn_congr (n := max i k) (le_max_left _ _) (fun k hk => ?_) (fun k hk => ?_) (fun _ _ => rfl) k (le_max_right _ _)
    · rw [e1, upd_ne _ _ (by omega)]
    · rw [e2, upd_ne _ _ (by omega)]
  have hrot' : ∀ u : Nat → 𝕜, rotateColumn E st'.cs st'.sn (i + 1) u =
      upd (upd (rotateColumn E st.cs st.sn i u) i
        (applyRotation E (rotateColumn E st.cs st.sn i u i) (rotateColumn E st.cs st.sn i u (i + 1)) r.1 r.2).1) (i + 1)
        (applyRotation E (rotateColumn E st.cs st.sn i u i) (rotateColumn E st.cs st.sn i u (i + 1)) r.1 r.2).2 := by
    intro u
    rw [rotateColumn_succ, show rotateColumn E st'.cs st'.sn i u = rotateColumn E st.cs st.sn i u from funext (hrot u), e1, e2,
      upd_same, upd_same]
  have hwi : w (i + 1) = (‖g.1‖ : 𝕜) := by rw [hw, rotateColumn_above _ _ _ _ _ (by omega), ← hcol, upd_same]
  refine ⟨?_, ?_, ?_, ?_, ?_, ?_, ?_, ?_⟩
  · -- orthonormal
    intro a b ha hb
    have hn : ⟪((1 : 𝕜) / (‖g.1‖ : 𝕜)) • g.1, ((1 : 𝕜) / (‖g.1‖ : 𝕜)) • g.1⟫ = 1 := by
      rw [inner_smul_left, inner_smul_right, inner_self_eq_norm_sq_to_K]
      simp only [map_div₀, map_one, RCLike.conj_ofReal]
      field_simp
    have hx : ∀ k, k ≤ i → ⟪st.v k, ((1 : 𝕜) / (‖g.1‖ : 𝕜)) • g.1⟫ = 0 := fun k hk => by rw [inner_smul_right, g2 k hk, mul_zero]
    rw [hv1]
    rcases Nat.lt_or_ge i a with ha' | ha' <;> rcases Nat.lt_or_ge i b with hb' | hb'
    · obtain rfl : a = i + 1 := by omega
      obtain rfl : b = i + 1 := by omega
      rw [upd_same, hn, if_pos rfl]
    · obtain rfl : a = i + 1 := by omega
      rw [upd_same, upd_ne _ _ (by omega), if_neg (by omega), inner_eq_zero_symm]
      exact hx b hb'
    · obtain rfl : b = i + 1 := by omega
      rw [upd_same, upd_ne _ _ (by omega), if_neg (by omega)]
      exact hx a ha'
    · rw [upd_ne _ _ (by omega), upd_ne _ _ (by omega)]
      exact h.ortho a b ha' hb'
  · rw [hv1, upd_ne _ _ (by omega)]; exact h.first
  · intro k hk
    rw [e1, e2]
    by_cases hki : k = i
    · rw [hki, upd_same, upd_same]; exact hu
    · rw [upd_ne _ _ hki, upd_ne _ _ hki]; exact h.uni k (by omega)
  · intro a ha
    rw [hrot', e4, hq]
    have hs0 : rotateColumn E st.cs st.sn i (fun k => if k = 0 then (‖r0‖ : 𝕜) else 0) (i + 1) = st.s (i + 1) := by
      rw [rotateColumn_above _ _ _ _ _ (by omega), h.tail (i + 1) (by omega) him, if_neg (by omega)]
    rw [← h.s i (le_refl _), hs0]
    by_cases h1 : a = i + 1
    · rw [h1, upd_same, upd_same]
    · rw [upd_ne _ _ h1, upd_ne _ _ h1]
      by_cases h2 : a = i
      · rw [h2, upd_same, upd_same]
      · rw [upd_ne _ _ h2, upd_ne _ _ h2, h.s a (by omega)]
  · intro b hb
    rcases Nat.lt_or_ge b i with hbi | hbi
    · obtain ⟨cl, c0, cn, c1, c2⟩ := h.cols b hbi
      refine ⟨cl, c0, cn, ?_, fun a ha => ?_⟩
      · rw [hy1, hy b hbi, c1, hv1]
        refine sum_congr rfl fun k hk => ?_
        rw [upd_ne _ _ (by have := mem_range.1 hk; omega)]
      · have z1 : rotateColumn E st.cs st.sn i cl i = 0 := by rw [c2 i (le_refl _), if_neg (by omega)]
        have z2 : rotateColumn E st.cs st.sn i cl (i + 1) = 0 := by
          rw [rotateColumn_above _ _ _ _ _ (by omega), c0 (i + 1) (by omega)]
        rw [hrot', z1, z2, e3]
        have z3 : applyRotation E (0 : 𝕜) 0 r.1 r.2 = (0, 0) := by simp [applyRotation]
        rw [z3]
        by_cases h1 : a = i + 1
        · rw [h1, upd_same, if_neg (by omega)]
        · rw [upd_ne _ _ h1]
          by_cases h2 : a = i
          · rw [h2, upd_same, if_neg (by omega)]
          · rw [upd_ne _ _ h2, c2 a (by omega)]
            simp [setCol, show b ≠ i by omega]
    · obtain rfl : b = i := by omega
      refine ⟨fun k => if k ≤ b + 1 then col k else 0, fun k hk => if_neg (by omega), ?_, ?_, fun a ha => ?_⟩
      · dsimp only
        rw [if_pos (le_refl _), ← hcol, upd_same]; exact hgn
      · rw [hy1, hv1, g1, sum_range_succ _ (b + 1)]
        congr 1
        · refine sum_congr rfl fun k hk => ?_
          have := mem_range.1 hk
          dsimp only
          rw [if_pos (by omega), upd_ne _ _ (by omega), ← hcol, upd_ne _ _ (by omega)]
        · dsimp only
          rw [if_pos (le_refl _), upd_same, ← hcol, upd_same, smul_smul, mul_one_div, div_self hgn, one_smul]
      · have hc : ∀ k, k ≤ b + 1 → rotateColumn E st.cs st.sn b (fun k => if k ≤ b + 1 then col k else 0) k = w k := by
          rw [hw]
          exact rotateColumn_congr (by omega) (fun _ _ => rfl) (fun _ _ => rfl) (fun k hk => if_pos hk)
        rw [hrot', hc b (by omega), hc (b + 1) (le_refl _), ← ht, e3]
        simp only [setCol, if_true]
        by_cases h1 : a = b + 1
        · rw [h1, upd_same, if_neg (by omega), ht2]
        · rw [upd_ne _ _ h1, upd_ne _ _ h1, if_pos (by omega)]
          by_cases h2 : a = b
          · rw [h2, upd_same, upd_same]
          · rw [upd_ne _ _ h2, upd_ne _ _ h2, hc a (by omega)]
  · intro b hb
    rw [e3]
    by_cases hbi : b = i
    · simp only [setCol, hbi, if_true]
      rw [upd_ne _ _ (by omega), upd_same]
      intro h0
      have hn := rotation_norm hE r.1 r.2 (w i) (w (i + 1)) hu
      rw [← ht, h0, ht2, hwi] at hn
      simp only [norm_zero, RCLike.norm_ofReal, abs_norm] at hn
      have : 0 < ‖g.1‖ := norm_pos_iff.2 hne
      nlinarith [sq_nonneg ‖w i‖]
    · simp only [setCol, if_neg hbi]
      exact h.diag b (by omega)
  · intro a ha hm
    rw [e4, upd_ne _ _ (by omega), upd_ne _ _ (by omega)]
    exact h.tail a (by omega) hm
  · rw [e5, e4, upd_same]

end Arnoldi
end Solver
end Istl

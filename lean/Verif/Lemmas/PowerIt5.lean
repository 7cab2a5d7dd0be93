import Verif.Lemmas.PowerIt3
import Verif.Lemmas.PowerIt4

/-!
# Whole runs of the power and the inverse iteration
-/

namespace Istl

namespace Pow

open scoped InnerProductSpace
open Filter Topology

variable {E : Type} [NormedAddCommGroup E] [InnerProductSpace ℝ E] {A : E →ₗ[ℝ] E} {big : ℝ}

/-! ### Power iteration -/

/-- The states of the power iteration. -/
noncomputable def powSt (A : E →ₗ[ℝ] E) (big : ℝ) (o : PObj ℝ) (x : E) (lam : ℝ) : Nat → PState ℝ E
  | 0 => { powStart (realEnv A big) o x lam with y := A (unitVec x) }
  | k + 1 => (powStep (realEnv A big) (powSt A big o x lam k).bump).1

theorem powSt_spec {o : PObj ℝ} {x : E} {lam : ℝ} (hx : ∀ k, (A ^ k) x ≠ 0) (k : Nat) :
    (powSt A big o x lam k).x = unitVec ((A ^ k) x) ∧ (powSt A big o x lam k).y = A (unitVec ((A ^ k) x)) ∧
    (powSt A big o x lam k).obj.nIt = k := by
  induction k with
  | zero => exact ⟨rfl, rfl, rfl⟩
  | succ k ih =>
    have hu : unitVec (A (unitVec ((A ^ k) x))) = unitVec ((A ^ (k + 1)) x) := by
      obtain ⟨c, hc, h⟩ := unitVec_eq_smul (hx k)
      rw [h, map_smul, unitVec_smul hc, pow_apply]
    have e1 : (powSt A big o x lam (k + 1)).x = unitVec ((A ^ (k + 1)) x) := by
      rw [← hu, ← ih.2.1]; rfl
    refine ⟨e1, ?_, ?_⟩
    · rw [← e1]; rfl
    · change (powSt A big o x lam k).obj.nIt + 1 = k + 1
      rw [ih.2.2]

theorem powSt_good {o : PObj ℝ} {x : E} {lam : ℝ} (hx : ∀ k, (A ^ k) x ≠ 0) (k : Nat) :
    (powSt A big o x lam (k + 1)).lam = ⟪unitVec ((A ^ (k + 1)) x), A (unitVec ((A ^ (k + 1)) x))⟫_ℝ ∧
    (powSt A big o x lam (k + 1)).r = residual A ((A ^ (k + 1)) x) := by
  have e1 := (powSt_spec (big := big) (o := o) (lam := lam) hx (k + 1)).1
  have e2 : (powSt A big o x lam (k + 1)).lam =
      ⟪(powSt A big o x lam (k + 1)).x, A (powSt A big o x lam (k + 1)).x⟫_ℝ := rfl
  have e3 : (powSt A big o x lam (k + 1)).r = ‖A (powSt A big o x lam (k + 1)).x +
    (-(powSt A big o x lam (k + 1)).lam) • (powSt A big o x lam (k + 1)).x‖ := rfl
  rw [e1] at e2 e3
  refine ⟨e2, ?_⟩
  rw [e3, e2, neg_smul, ← sub_eq_add_neg, residual]

/-- Complete description of `applyPowerIteration`. -/
theorem power_run {o : PObj ℝ} {x : E} {lam ε : ℝ} (hx : ∀ k, (A ^ k) x ≠ 0) (hε : ε < big) (maxIt : Nat) :
    (∃ n s, 1 ≤ n ∧ n ≤ maxIt ∧ applyPowerIteration (realEnv A big) maxIt ε o x lam = (s, .ok ()) ∧ s.obj.nIt = n ∧
      s.x = unitVec ((A ^ n) x) ∧ s.lam = ⟪s.x, A s.x⟫_ℝ ∧ residual A ((A ^ n) x) ≤ ε ∧
      ∀ j, 1 ≤ j → j < n → ε < residual A ((A ^ j) x)) ∨
    (∃ s, applyPowerIteration (realEnv A big) maxIt ε o x lam = (s, .throw .istlError) ∧ s.obj.nIt = maxIt + 1 ∧
      ∀ j, 1 ≤ j → j ≤ maxIt → ε < residual A ((A ^ j) x)) := by
  have hrun := powLoop_run (env := realEnv A big) (eps := ε) (step := powStep (realEnv A big)) (powSt A big o x lam) (fun k => rfl) maxIt 0
  have hst : applyPowerIteration (realEnv A big) maxIt ε o x lam =
      powLoop (realEnv A big) ε (powStep (realEnv A big)) maxIt (powSt A big o x lam 0) := rfl
  rw [← hst] at hrun
  simp only [Nat.zero_add] at hrun
  rcases hrun with ⟨n, h1, h2, h3, h4⟩ | ⟨h1, h2⟩
  · left
    rcases n with _ | n
    · exact absurd (gt_false.mp h3) (not_le.mpr hε)
    · obtain ⟨e1, e2, e3⟩ := powSt_spec (big := big) (o := o) (lam := lam) hx (n + 1)
      obtain ⟨g1, g2⟩ := powSt_good (big := big) (o := o) (lam := lam) hx n
      refine ⟨n + 1, _, by omega, h1, h2, e3, e1, by rw [e1, g1], ?_, ?_⟩
      · rw [← g2]; exact gt_false.mp h3
      · intro j hj1 hj2
        have := gt_true.mp (h4 j hj2)
        obtain ⟨j, rfl⟩ : ∃ i, j = i + 1 := ⟨j - 1, by omega⟩
        rwa [(powSt_good (big := big) (o := o) (lam := lam) hx j).2] at this
  · right
    refine ⟨_, h1, ?_, ?_⟩
    · change (powSt A big o x lam maxIt).obj.nIt + 1 = _
      rw [(powSt_spec hx maxIt).2.2]
    · intro j hj1 hj2
      have := gt_true.mp (h2 j hj2)
      obtain ⟨j, rfl⟩ : ∃ i, j = i + 1 := ⟨j - 1, by omega⟩
      rwa [(powSt_good (big := big) (o := o) (lam := lam) hx j).2] at this

/-! ### Inverse iteration with a solver that always succeeds -/

variable {m : SpMat (PBlock ℝ)} {b : Nat} {sol : PObj ℝ → E → E → Res E}

theorem inverse_run {S : E →ₗ[ℝ] E} {γ ε : ℝ} (avoid : Bool) (hinv : ∀ z, A (S z) - γ • S z = z)
    {o : PObj ℝ} (ho : InSync m b o) (hsh : Shiftable m o)
    (hsol : ∀ o y x, InSync m b o → o.mu = γ → sol o y x = .ok (S x))
    {x : E} (hx : x ≠ 0) (lam : ℝ) (hε : ε < big) (maxIt : Nat) :
    (∃ n s, 1 ≤ n ∧ n ≤ maxIt ∧
      applyInverseIterationShift (realEnv A big) m b maxIt avoid γ ε sol o x lam = (s, .ok ()) ∧ s.obj.nIt = n ∧
      s.x = unitVec ((S ^ n) x) ∧ s.lam = ⟪s.x, A s.x⟫_ℝ ∧ residual A ((S ^ n) x) ≤ ε ∧
      ∀ j, 1 ≤ j → j < n → ε < residual A ((S ^ j) x)) ∨
    (∃ s, applyInverseIterationShift (realEnv A big) m b maxIt avoid γ ε sol o x lam = (s, .throw .istlError) ∧
      s.obj.nIt = maxIt + 1 ∧ ∀ j, 1 ≤ j → j ≤ maxIt → ε < residual A ((S ^ j) x)) := by
  have hinj : ∀ z, z ≠ 0 → S z ≠ 0 := fun z hz h => hz (by rw [← hinv z, h]; simp)
  have hne : ∀ k, (S ^ k) x ≠ 0 := by
    intro k
    induction k with
    | zero => exact hx
    | succ k ih => rw [pow_apply]; exact hinj _ ih
  obtain ⟨o', ho1, ho2, ho3, _, _⟩ := updateShiftMu_ok (env := realEnv A big) (fun a b => eq_true) γ hsh ho
  have hstart : applyInverseIterationShift (realEnv A big) m b maxIt avoid γ ε sol o x lam =
      powLoop (realEnv A big) ε (invStep (realEnv A big) avoid γ sol) maxIt (powStart (realEnv A big) o' x lam) := by
    unfold applyInverseIterationShift; rw [ho1]
  let st : Nat → PState ℝ E := fun k => Nat.rec (powStart (realEnv A big) o' x lam)
    (fun _ s => (invStep (realEnv A big) avoid γ sol s.bump).1) k
  have hst : ∀ k, (invStep (realEnv A big) avoid γ sol (st k).bump).2 = .ok () ∧ (st k).x = unitVec ((S ^ k) x) ∧
      InSync m b (st k).obj ∧ (st k).obj.mu = γ ∧ (st k).obj.nIt = k ∧
      (1 ≤ k → (st k).lam = ⟪(st k).x, A (st k).x⟫_ℝ ∧ (st k).r = residual A ((S ^ k) x)) := by
    have key : ∀ s : PState ℝ E, ∀ k, s.x = unitVec ((S ^ k) x) → InSync m b s.obj → s.obj.mu = γ →
        invStep (realEnv A big) avoid γ sol s.bump =
          (accept (realEnv A big) (pairOf A (S s.x)) { s.bump with y := S s.x }, .ok ()) := by
      intro s k h1 h2 h3
      have hxs : s.x ≠ 0 := by rw [h1]; exact unitVec_ne (hne k)
      have e : (if avoid then crimeFree (realEnv A big) { s.bump with y := S s.x }
          else invCrime (realEnv A big) γ { s.bump with y := S s.x }) = pairOf A (S s.x) := by
        split
        · exact crimeFree_eq _ (hinj _ hxs)
        · exact invCrime_eq _ (hinv _) (hinj _ hxs)
      unfold invStep solveWith
      rw [hsol _ _ _ (show InSync m b s.bump.obj from h2) h3]
      simp only [andThen]
      rw [← e]
      rfl
    intro k
    induction k with
    | zero =>
      refine ⟨?_, rfl, ho2, ho3, rfl, fun h => by omega⟩
      rw [key _ 0 rfl ho2 ho3]
    | succ k ih =>
      obtain ⟨_, i1, i2, i3, i4, _⟩ := ih
      have e0 := key _ _ i1 i2 i3
      have e1 : st (k + 1) = accept (realEnv A big) (pairOf A (S (st k).x)) { (st k).bump with y := S (st k).x } :=
        congrArg Prod.fst e0
      have hu : unitVec (S (st k).x) = unitVec ((S ^ (k + 1)) x) := by
        obtain ⟨c, hc, h⟩ := unitVec_eq_smul (hne k)
        rw [i1, h, map_smul, unitVec_smul hc, pow_apply]
      have e2 : (st (k + 1)).x = unitVec ((S ^ (k + 1)) x) := by rw [e1]; exact hu
      have e3 : InSync m b (st (k + 1)).obj := by rw [e1]; exact i2
      have e4 : (st (k + 1)).obj.mu = γ := by rw [e1]; exact i3
      refine ⟨by rw [key _ _ e2 e3 e4], e2, e3, e4, ?_, fun _ => ⟨?_, ?_⟩⟩
      · rw [e1]; change (st k).obj.nIt + 1 = k + 1; rw [i4]
      · rw [e2, e1]
        change ⟪unitVec (S (st k).x), A (unitVec (S (st k).x))⟫_ℝ = _
        rw [hu]
      · rw [e1]
        change residual A (S (st k).x) = _
        rw [residual, hu]; rfl
  have hrun := powLoop_run (env := realEnv A big) (eps := ε) (step := invStep (realEnv A big) avoid γ sol) st
    (fun k => Prod.ext rfl (hst k).1) maxIt 0
  rw [show powStart (realEnv A big) o' x lam = st 0 from rfl] at hstart
  rw [← hstart] at hrun
  simp only [Nat.zero_add] at hrun
  rcases hrun with ⟨n, h1, h2, h3, h4⟩ | ⟨h1, h2⟩
  · left
    rcases n with _ | n
    · exact absurd (gt_false.mp h3) (not_le.mpr hε)
    · obtain ⟨_, e1, _, _, e3, e4⟩ := hst (n + 1)
      obtain ⟨g1, g2⟩ := e4 (by omega)
      refine ⟨n + 1, _, by omega, h1, h2, e3, e1, g1, ?_, ?_⟩
      · rw [← g2]; exact gt_false.mp h3
      · intro j hj1 hj2
        have := gt_true.mp (h4 j hj2)
        rwa [((hst j).2.2.2.2.2 hj1).2] at this
  · right
    refine ⟨_, h1, ?_, ?_⟩
    · change (st maxIt).obj.nIt + 1 = _
      rw [(hst maxIt).2.2.2.2.1]
    · intro j hj1 hj2
      have := gt_true.mp (h2 j hj2)
      rwa [((hst j).2.2.2.2.2 hj1).2] at this

/-! ### Small residuals force the limit -/

theorem small_eps {res lm : Nat → ℝ} {μ δ : ℝ} (hδ : 0 < δ) (hnn : ∀ n, 0 ≤ res n) (hz : ∀ n, res n = 0 → lm n = μ)
    (hl : Tendsto lm atTop (𝓝 μ)) : ∃ ε₀, 0 < ε₀ ∧ ∀ ε n, ε ≤ ε₀ → res n ≤ ε → |lm n - μ| ≤ δ := by
  obtain ⟨N, hN⟩ := eventually_atTop.mp (Metric.tendsto_nhds.mp hl δ hδ)
  have hfin : ∀ M : Nat, ∃ ε₀, 0 < ε₀ ∧ ∀ n < M, res n = 0 ∨ ε₀ < res n := by
    intro M
    induction M with
    | zero => exact ⟨1, one_pos, by simp⟩
    | succ M ih =>
      obtain ⟨e, he, h⟩ := ih
      rcases (hnn M).eq_or_lt with h0 | h0
      · refine ⟨e, he, fun n hn => ?_⟩
        rcases Nat.lt_succ_iff_lt_or_eq.mp hn with h1 | rfl
        · exact h n h1
        · exact Or.inl h0.symm
      · refine ⟨min e (res M / 2), lt_min he (by linarith), fun n hn => ?_⟩
        rcases Nat.lt_succ_iff_lt_or_eq.mp hn with h1 | rfl
        · rcases h n h1 with h2 | h2
          · exact Or.inl h2
          · exact Or.inr ((min_le_left _ _).trans_lt h2)
        · exact Or.inr ((min_le_right _ _).trans_lt (by linarith))
  obtain ⟨e, he, h⟩ := hfin N
  refine ⟨e, he, fun ε n h1 h2 => ?_⟩
  by_cases hn : N ≤ n
  · have := hN n hn
    rw [Real.dist_eq] at this
    exact this.le
  · rcases h n (by omega) with h3 | h3
    · rw [hz n h3, sub_self, abs_zero]; exact hδ.le
    · linarith

/-- A direction with zero residual and a component along an eigenvector of `μ` has Rayleigh quotient `μ`. -/
theorem resid_zero (hA : SymMap A) {v w : E} {μ : ℝ} (hv : A v = μ • v) (hw : w ≠ 0) (hvw : ⟪v, w⟫_ℝ ≠ 0)
    (h : residual A w = 0) : ⟪unitVec w, A (unitVec w)⟫_ℝ = μ := by
  have h1 : A (unitVec w) = ⟪unitVec w, A (unitVec w)⟫_ℝ • unitVec w := sub_eq_zero.mp (norm_eq_zero.mp h)
  obtain ⟨c, hc, hcw⟩ := unitVec_eq_smul hw
  have h2 : ⟪v, A (unitVec w)⟫_ℝ = μ * ⟪v, unitVec w⟫_ℝ := by rw [← hA, hv, real_inner_smul_left]
  rw [h1, real_inner_smul_right] at h2
  have h3 : ⟪v, unitVec w⟫_ℝ ≠ 0 := by rw [hcw, real_inner_smul_right]; exact mul_ne_zero hc.ne' hvw
  exact mul_right_cancel₀ h3 h2

end Pow

end Istl

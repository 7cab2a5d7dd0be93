import Verif.Spec.AmgSolve
import Verif.Props.C52
import Verif.Props.C59
import Verif.Props.C60

/-! Smoothers of AMG built from sweeps. -/

namespace Istl
namespace Amg
open Prec Gsetc
variable {R K V : Type} [Ring R] [Field K] [LinearOrder K] [IsStrictOrderedRing K] [AddCommGroup V] [Module R V] [Module K V] {B : V → V → K}

/-- `k` steps `x ← x + T (b - A x)` for pre- and `x ← x + T' (b - A x)` for post-smoothing, the former lowering the functional. -/
theorem smoother_of_steps (hB : ScalarProd B) (act : R → V →+ V) (hact : ∀ a (c : K) x, act a (c • x) = c • act a x)
    (A : SpMat R) (hA : A.Symmetric B act) (hP : A.PosDef B act) (f g : (Nat → V) → (Nat → V) → Res (Nat → V))
    (F G : Module.End K (Nat → V))
    (hF : ∀ b x, f b x = .ok (x + F (cut A.n b - matOp act hact A x))) (hG : ∀ b x, g b x = .ok (x + G (cut A.n b - matOp act hact A x)))
    (hz : ∀ d i, A.n ≤ i → F d i = 0 ∧ G d i = 0) (hFG : Adjoint (blockDot B A.n) F G)
    (sw : ∀ b x x', f b x = .ok x' → A.functional B act b x' ≤ A.functional B act b x ∧
      ((∃ i, i < A.n ∧ A.apply act x i ≠ b i) → A.functional B act b x' < A.functional B act b x))
    (k : Nat) (hk : 0 < k) (sm : Smoother R V) (e1 : ∀ v d, sm A true v d = iterate k (f d) v)
    (e2 : ∀ v d, sm A false v d = iterate k (g d) v) : SpdSmoother B act A sm := by
  have hBD := blockDot_scalarProd hB A.n
  have hM := matOp_symm act hact A hA
  have hS1 : ∀ d, sm A true 0 d = .ok ((relaxOp (matOp act hact A) F k * cutOp K A.n : Module.End K (Nat → V)) d) :=
    fun d => (e1 0 d).trans (iterate_relax _ F A.n k _ hF d)
  have hS2 : ∀ d, sm A false 0 d = .ok ((relaxOp (matOp act hact A) G k * cutOp K A.n : Module.End K (Nat → V)) d) :=
    fun d => (e2 0 d).trans (iterate_relax _ G A.n k _ hG d)
  have zr : ∀ T : Module.End K (Nat → V), (∀ d i, A.n ≤ i → T d i = 0) → ∀ k d i, A.n ≤ i → relaxOp (matOp act hact A) T k d i = 0 := by
    intro T hT k
    induction k with
    | zero => intro d i _; rfl
    | succ k ih =>
      intro d i hi
      have pw : ∀ j (y : Nat → V), (∀ i, A.n ≤ i → y i = 0) → ∀ i, A.n ≤ i → ((1 - T * matOp act hact A) ^ j : Module.End K (Nat → V)) y i = 0 := by
        intro j
        induction j with
        | zero => intro y hy i hi; simpa using hy i hi
        | succ j ih =>
          intro y hy i hi
          rw [pow_succ, Module.End.mul_apply]
          refine ih _ (fun i hi => ?_) i hi
          simp [hy i hi, hT _ i hi]
      simp only [relaxOp, LinearMap.add_apply, Pi.add_apply, ih d i hi, zero_add, Module.End.mul_apply]
      exact pw k _ (fun i hi => hT d i hi) i hi
  refine ⟨_, _, hS1, hS2, fun d => ⟨fun i hi => zr F (fun d i hi => (hz d i hi).1) k _ i hi,
    fun i hi => zr G (fun d i hi => (hz d i hi).2) k _ i hi⟩, ?_, ?_⟩
  · intro x y
    have := relaxOp_adj hBD hM hFG k (cutOp K A.n x) (cutOp K A.n y)
    rw [Module.End.mul_apply, Module.End.mul_apply,
      blockDot_congr (x' := _) (y' := cutOp K A.n y) (fun _ _ => rfl) (fun i hi => by simp [cutOp, cut, hi]), this]
    exact blockDot_congr (fun i hi => by simp [cutOp, cut, hi]) (fun _ _ => rfl)
  · intro x hx hne
    have hne' : ∃ i, i < A.n ∧ x i ≠ 0 := by
      by_contra hc
      push Not at hc
      apply hne
      funext i
      by_cases hi : i < A.n
      · exact hc i hi
      · exact hx i (by omega)
    have em : levelMul act A x = matOp act hact A x := rfl
    rw [em]
    have hr := hS1 (matOp act hact A x)
    rw [e1] at hr
    generalize (relaxOp (matOp act hact A) F k * cutOp K A.n : Module.End K (Nat → V)) (matOp act hact A x) = y at hr ⊢
    have hb : ∀ i, i < A.n → A.apply act x i = matOp act hact A x i := fun i hi => by simp [matOp, hi]
    have e1 := energy_eq hB act hact A hA (matOp act hact A x) x y hb
    rw [e1]
    obtain ⟨s, s0, sk, hs⟩ := iterate_seq k _ 0 y hr
    have mono : ∀ j, j < k → A.functional B act (matOp act hact A x) (s (j + 1)) < 0 := by
      intro j
      induction j with
      | zero =>
        intro hj
        have := (sw _ _ _ (hs 0 hj)).2
        rw [s0, functional_zero hB] at this
        apply this
        by_contra hc
        push Not at hc
        have hp := hP x hne'
        rw [blockDot_congr (x' := 0) (y' := x) (fun j hj => by
          rw [hb j hj, ← hc j hj]; simp [SpMat.apply, SpMat.partSum]) (fun _ _ => rfl), hBD.zero] at hp
        exact lt_irrefl _ hp
      | succ j ih => intro hj; exact lt_of_le_of_lt (sw _ _ _ (hs (j + 1) hj)).1 (ih (by omega))
    have := mono (k - 1) (by omega)
    rw [show k - 1 + 1 = k by omega, sk] at this
    linarith

theorem sor_smoother (hB : ScalarProd B) (β : BlockSolve R V V) (hβ : ∀ a (c : K) x, β.act a (c • x) = c • β.act a x)
    (A : SpMat R) (hS : A.Sorted) (hD : A.HasDiag) (hI : A.DiagInvertible β.act) (hA : A.Symmetric B β.act) (hP : A.PosDef B β.act)
    (k : Nat) (hk : 0 < k) (w : K) (h0 : 0 < w) (h2 : w < 2) : SpdSmoother B β.act A (sorSmoother β k w) := by
  obtain ⟨F, G, J, hF, hG, -, hz, hadj⟩ := sweep_ops β hβ A hS hD hI w
  exact smoother_of_steps hB β.act hβ A hA hP _ _ F G hF hG (fun d i hi => ⟨(hz d i hi).1, (hz d i hi).2.1⟩) (hadj B hB hA).1
    (fun b x x' h => C52_sweep_lowers_functional hB β hβ A hS hD hA hP w h0 h2 b x x' (.inl h)) k hk _
    (fun v d => by simp [sorSmoother, sorDir]) (fun v d => by simp [sorSmoother, sorDir])

theorem ssor_smoother (hB : ScalarProd B) (β : BlockSolve R V V) (hβ : ∀ a (c : K) x, β.act a (c • x) = c • β.act a x)
    (A : SpMat R) (hS : A.Sorted) (hD : A.HasDiag) (hI : A.DiagInvertible β.act) (hA : A.Symmetric B β.act) (hP : A.PosDef B β.act)
    (k : Nat) (hk : 0 < k) (w : K) (h0 : 0 < w) (h2 : w < 2) : SpdSmoother B β.act A (ssorSmoother β k w) := by
  obtain ⟨F, G, J, hF, hG, -, hz, hadj⟩ := sweep_ops β hβ A hS hD hI w
  have hBD := blockDot_scalarProd hB A.n
  have hM := matOp_symm β.act hβ A hA
  have hFG := (hadj B hB hA).1
  have hst := ssorStep_op (A := A) (β := β) (w := w) (matOp β.act hβ A) F G hF hG
  have hz' : ∀ d i, A.n ≤ i → (F + G - G * matOp β.act hβ A * F : Module.End K (Nat → V)) d i = 0 := by
    intro d i hi
    simp only [LinearMap.sub_apply, LinearMap.add_apply, Module.End.mul_apply, Pi.sub_apply, Pi.add_apply, (hz d i hi).1, (hz d i hi).2.1,
      (hz (matOp β.act hβ A (F d)) i hi).2.1]
    simp
  have hTT : Adjoint (blockDot B A.n) (F + G - G * matOp β.act hβ A * F) (F + G - G * matOp β.act hβ A * F) := by
    have hGF : Adjoint (blockDot B A.n) G F := fun x y => by rw [hBD.symm, ← hFG, hBD.symm]
    intro x y
    simp only [LinearMap.sub_apply, LinearMap.add_apply, Module.End.mul_apply]
    rw [hBD.sub, hBD.add, hBD.sub', hBD.add', hFG x y, hGF x y, hGF _ y, hM _ (F y), hFG x]
    ring
  refine smoother_of_steps hB β.act hβ A hA hP (fun b x => ssorStep β w A b x) (fun b x => ssorStep β w A b x) _ _ hst hst
    (fun d i hi => ⟨hz' d i hi, hz' d i hi⟩) hTT ?_ k hk _ (fun v d => rfl) (fun v d => rfl)
  intro b x x' h
  unfold ssorStep at h
  rw [Res.bind_eq_ok] at h
  obtain ⟨y, h1, h3⟩ := h
  have a1 := C52_sweep_lowers_functional hB β hβ A hS hD hA hP w h0 h2 b x y (.inl h1)
  have a2 := C52_sweep_lowers_functional hB β hβ A hS hD hA hP w h0 h2 b y x' (.inr h3)
  exact ⟨le_trans a2.1 a1.1, fun hne => lt_of_le_of_lt a2.1 (a1.2 hne)⟩

end Amg
end Istl

import Verif.Lemmas.GmresRun
import Verif.Props.C28
import Mathlib.Analysis.InnerProductSpace.PiL2

/-!
# C32: plane rotations and the triangular solve of GMRes

`planeRotation E cj dx dy` is `generatePlaneRotation` (`cj` the conjugation) or MINRES's `generateGivensRotation` (`cj` the identity),
`applyRotation` is `applyPlaneRotation`. `𝕜` is `ℝ` or `ℂ`, `E.rotEps` the constant `1e-15`.
-/

namespace Istl
namespace Solver

open Finset

section
variable {𝕜 X : Type} [RCLike 𝕜] {E : Env 𝕜 ℝ X}

/-- GMRes: for all inputs, zero and tiny ones included, the rotation is unitary. -/
theorem C32_unitary (hE : ExactScalars E) (dx dy : 𝕜) :
    (planeRotation E E.conj dx dy).1 ^ 2 + ‖(planeRotation E E.conj dx dy).2‖ ^ 2 = 1 :=
  unitary_of hE E.conj (fun z => by rw [hE.conj]; exact RCLike.norm_conj z) dx dy

/-- MINRES: the same. -/
theorem C32_unitary_minres (hE : ExactScalars E) (dx dy : 𝕜) :
    (planeRotation E id dx dy).1 ^ 2 + ‖(planeRotation E id dx dy).2‖ ^ 2 = 1 :=
  unitary_of hE id (fun _ => rfl) dx dy

/-- GMRes: the rotation annihilates the second entry, unless one of the inputs is smaller than the threshold; in that case the second
entry becomes that input up to sign, so it is smaller than the threshold. -/
theorem C32_annihilates (hE : ExactScalars E) (dx dy : 𝕜) :
    let r := planeRotation E E.conj dx dy
    (‖dy‖ < E.rotEps ∧ (applyRotation E dx dy r.1 r.2).2 = dy) ∨ (‖dx‖ < E.rotEps ∧ (applyRotation E dx dy r.1 r.2).2 = -dx) ∨
      (applyRotation E dx dy r.1 r.2).2 = 0 :=
  rotation_second hE E.conj dx dy (hE.conj _) (hE.conj _)

/-- GMRes, the exact case: inputs that are zero or not below the threshold. -/
theorem C32_annihilates_exact (hE : ExactScalars E) (dx dy : 𝕜) (hx : dx = 0 ∨ E.rotEps ≤ ‖dx‖) (hy : dy = 0 ∨ E.rotEps ≤ ‖dy‖) :
    (applyRotation E dx dy (planeRotation E E.conj dx dy).1 (planeRotation E E.conj dx dy).2).2 = 0 := by
  rcases C32_annihilates hE dx dy with ⟨h1, h2⟩ | ⟨h1, h2⟩ | h
  · rw [h2]; exact hy.resolve_right (by linarith)
  · rw [h2, hx.resolve_right (by linarith), neg_zero]
  · exact h

/-- MINRES for real entries: the same. (In MINRES `dy` is a norm and `dx` an entry of the real tridiagonal matrix.) -/
theorem C32_annihilates_minres {Y : Type} {E : Env ℝ ℝ Y} (hE : ExactScalars E) (dx dy : ℝ) (hx : dx = 0 ∨ E.rotEps ≤ ‖dx‖)
    (hy : dy = 0 ∨ E.rotEps ≤ ‖dy‖) :
    (applyRotation E dx dy (planeRotation E id dx dy).1 (planeRotation E id dx dy).2).2 = 0 := by
  rcases rotation_second hE id dx dy rfl rfl with ⟨h1, h2⟩ | ⟨h1, h2⟩ | h
  · rw [h2]; exact hy.resolve_right (by linarith)
  · rw [h2, hx.resolve_right (by linarith), neg_zero]
  · exact h

/-- Applying a unitary rotation keeps the Euclidean norm of the pair. -/
theorem C32_isometry (hE : ExactScalars E) (c : ℝ) (s dx dy : 𝕜) (h : c ^ 2 + ‖s‖ ^ 2 = 1) :
    ‖(applyRotation E dx dy c s).1‖ ^ 2 + ‖(applyRotation E dx dy c s).2‖ ^ 2 = ‖dx‖ ^ 2 + ‖dy‖ ^ 2 :=
  rotation_norm hE c s dx dy h

end

/-- Back substitution solves the upper triangular system `Σ_{b ≥ a} H[a][b] y[b] = s[a]`, over any field, for a non-zero diagonal. -/
theorem C32_back_substitution {K : Type} [Field K] [DecidableEq K] (i : Nat) (H : Nat → Nat → K) (s : Nat → K)
    (hd : ∀ a, a < i → H a a ≠ 0) (a : Nat) (ha : a < i) : ∑ b ∈ Ico a i, H a b * backSubst i H s b = s a :=
  backSubst_row i H s hd a ha

/-- ... and `update` returns the combination of the vectors with this solution. -/
theorem C32_update {K X : Type} [Field K] [DecidableEq K] [AddCommGroup X] [Module K X] (i : Nat) (H : Nat → Nat → K) (s : Nat → K)
    (v : Nat → X) (hd : ∀ a, a < i → H a a ≠ 0) :
    ∃ y : Nat → K, (∀ a, a < i → ∑ b ∈ Ico a i, H a b * y b = s a) ∧ gmUpdate i H s v = ∑ a ∈ range i, y a • v a :=
  ⟨backSubst i H s, fun a ha => backSubst_row i H s hd a ha, gmUpdate_eq i H s v⟩

/-! ## Non-vacuity -/

/-- Exact arithmetic on the plane `ℂ` over `ℝ`, operator: multiplication with `a`. -/
noncomputable def planeEnv (a : ℂ) : Env ℝ ℝ ℂ where
  pre x b := (x, b)
  post x := x
  subOp x b := b - a * x
  op x := a * x
  prec _ b := b
  dot x y := inner ℝ x y
  norm x := ‖x‖
  lt a b := @decide (a < b) (Classical.propDecidable _)
  finite _ := true
  isZero d := @decide (d = 0) (Classical.propDecidable _)
  abs x := ‖x‖
  ofReal x := x
  sqrt x := Real.sqrt x
  conj x := x
  rsqrt x := Real.sqrt x
  tiny := 1 / 10 ^ 30
  eps := 1 / 10 ^ 80
  rotEps := 1 / 10 ^ 15

theorem planeEnv_exact (a : ℂ) : ExactScalars (planeEnv a) where
  abs _ := rfl
  ofReal _ := rfl
  conj _ := rfl
  rsqrt _ := rfl
  lt _ _ := by simp [planeEnv]
  rotEps := by simp [planeEnv]

/-- The rotation of `(4,3)` annihilates `3`. -/
example : (applyRotation (planeEnv 0) 4 3 (planeRotation (planeEnv 0) (planeEnv 0).conj 4 3).1
    (planeRotation (planeEnv 0) (planeEnv 0).conj 4 3).2).2 = 0 := by
  refine C32_annihilates_exact (planeEnv_exact 0) 4 3 (Or.inr ?_) (Or.inr ?_) <;> norm_num [planeEnv]

/-- A triangular system. -/
example : backSubst 2 (fun a b => if a = b then 2 else (1 : ℚ)) (fun a => if a = 0 then 3 else 4) 0 = 1 / 2 ∧
    backSubst 2 (fun a b => if a = b then 2 else (1 : ℚ)) (fun a => if a = 0 then 3 else 4) 1 = 2 := by decide +kernel

end Solver
end Istl

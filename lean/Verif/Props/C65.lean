import Verif.Model.ScaledId
import Verif.Spec.MultiType
import Verif.Lemmas.MultiType
import Mathlib.LinearAlgebra.Matrix.Determinant.Basic
import Mathlib.Algebra.Order.BigOperators.Group.Finset
import Mathlib.Data.Rat.Star
import Mathlib.Tactic.Ring
import Mathlib.Tactic.FieldSimp

/-!
# C65: a `ScaledIdentityMatrix` behaves as the dense matrix `p·1`

Every operation of `ScaledIdentityMatrix`, which stores one number, agrees with the same operation on the dense matrix with that number on
its diagonal.
-/

namespace Istl
namespace ScaledId
open Matrix
variable {K : Type} {n : Nat}

/-- The matrix meant: `p` on the diagonal, zero elsewhere. -/
def mat [Zero K] (n : Nat) (p : K) : Matrix (Fin n) (Fin n) K := fun i j => if i = j then p else 0

theorem mat_mulVec [Field K] (p : K) (x : Fin n → K) : mat n p *ᵥ x = fun i => p * x i := by
  funext i
  simp [Matrix.mulVec, dotProduct, mat]

theorem mat_transpose [Field K] (p : K) : (mat n p)ᵀ = mat n p := by
  ext i j
  simp [mat, eq_comm]

theorem mat_conj [Field K] [StarRing K] (p : K) : (mat n p)ᴴ = mat n (star p) := by
  ext i j
  simp only [mat, Matrix.conjTranspose_apply]
  by_cases h : i = j
  · simp [h]
  · rw [if_neg h, if_neg fun e => h e.symm, star_zero]

theorem mat_smul [Field K] (p : K) : mat n p = p • (1 : Matrix (Fin n) (Fin n) K) := by
  ext i j
  simp [mat, Matrix.one_apply]

/-- The nine products are those of the matrix, its transposed and its Hermitian. -/
theorem C65_products [Field K] [StarRing K] (p : K) :
    MultiType.Implements (ops (n := n) p) (fun x => mat n p *ᵥ x) (fun x => (mat n p)ᵀ *ᵥ x) fun x => (mat n p)ᴴ *ᵥ x := by
  simp only [mat_transpose, mat_conj, mat_mulVec]
  constructor <;> intros <;> simp only [ops, MultiType.each_eq] <;> funext i <;>
    simp [Pi.add_apply, Pi.sub_apply, Pi.smul_apply, smul_eq_mul, mul_assoc]

/-- `mv` and `mtv`, whatever the target held before, also when source and target are the same vector. -/
theorem C65_mv [Field K] (p : K) (x y : Fin n → K) :
    mv p x y = mat n p *ᵥ x ∧ mtv p x y = (mat n p)ᵀ *ᵥ x ∧ mvSelf p x = mat n p *ᵥ x := by
  simp only [mat_transpose, mat_mulVec, mtv, mv, mvSelf, MultiType.each_eq, and_self]

/-- Sums, differences, scalar multiples and quotients; `+= k` adds to the diagonal only. -/
theorem C65_arith [Field K] (p q k : K) :
    mat n (add p q) = mat n p + mat n q ∧ mat n (add p k) = mat n p + k • 1 ∧
    mat n (sub p q) = mat n p - mat n q ∧ mat n (sub p k) = mat n p - k • 1 ∧
    mat n (mulR p k) = k • mat n p ∧ mat n (mulL k p) = k • mat n p ∧ mat n (div p k) = k⁻¹ • mat n p := by
  simp only [mat_smul, add, sub, mulR, mulL, div]
  refine ⟨add_smul .., add_smul .., sub_smul .., sub_smul .., ?_, ?_, ?_⟩
  · rw [smul_smul, mul_comm]
  · rw [smul_smul]
  · rw [smul_smul, div_eq_mul_inv, mul_comm]

/-- Two such matrices of positive size compare equal exactly when they have the same entries. -/
theorem C65_eq [Field K] [DecidableEq K] (hn : 0 < n) (p q : K) : eq p q = true ↔ mat n p = mat n q := by
  simp only [eq, decide_eq_true_eq]
  constructor
  · rintro rfl; rfl
  · intro h
    have := congrFun (congrFun h ⟨0, hn⟩) ⟨0, hn⟩
    simpa [mat] using this

/-- For `p ≠ 0`, `solve` returns the solution and `invert` the inverse matrix. -/
theorem C65_solve [Field K] (p : K) (hp : p ≠ 0) (x b : Fin n → K) :
    mat n p *ᵥ solve p x b = b ∧ (∀ z, mat n p *ᵥ z = b → z = solve p x b) ∧
    mat n (invert p) * mat n p = 1 ∧ mat n p * mat n (invert p) = 1 := by
  refine ⟨?_, ?_, ?_, ?_⟩
  · rw [mat_mulVec]
    funext i
    simp only [solve, MultiType.each_eq]
    field_simp
  · intro z hz
    rw [mat_mulVec] at hz
    funext i
    simp only [solve, MultiType.each_eq, ← hz]
    field_simp
  · simp only [mat_smul, invert, smul_mul_smul_comm, Matrix.mul_one]
    rw [one_div, inv_mul_cancel₀ hp, one_smul]
  · simp only [mat_smul, invert, smul_mul_smul_comm, Matrix.mul_one]
    rw [one_div, mul_inv_cancel₀ hp, one_smul]

/-- `determinant` is the determinant. -/
theorem C65_determinant [Field K] (p : K) : determinant n p = (mat n p).det := by
  rw [mat_smul, Matrix.det_smul, Matrix.det_one, mul_one, Fintype.card_fin, determinant]

/-- `frobenius_norm2` is the sum of the squares of the entries: no conjugation, so this is the squared Frobenius norm for real
numbers only. -/
theorem C65_frobenius [Field K] (p : K) : frobeniusNorm2 n p = ∑ i, ∑ j, mat n p i j * mat n p i j := by
  simp [frobeniusNorm2, mat, mul_assoc]

/-- `infinity_norm` is the largest row sum of absolute values, `exists(i,j)` says whether an entry may differ from zero. -/
theorem C65_norm_exists [Field K] [LinearOrder K] [IsStrictOrderedRing K] (p : K) :
    (∀ i, ∑ j, |mat n p i j| = infinityNorm p) ∧
    ∀ i j : Fin n, (exists' i j = true → mat n p i j = p) ∧ (exists' i j = false → mat n p i j = 0) := by
  refine ⟨fun i => ?_, fun i j => ?_⟩
  · rw [Finset.sum_eq_single i]
    · simp [mat, infinityNorm]
    · intro j _ hj
      simp [mat, if_neg fun e : i = j => hj e.symm]
    · simp
  · by_cases h : i = j <;> simp [exists', mat, h]

/-- Assigning to a dense matrix writes all entries, whatever it held before. -/
theorem C65_toDense [Field K] (p : K) (D : Fin n → Fin n → K) : toDense p D = mat n p := by
  exact (MultiType.each_eq (fun i (r : Fin n → K) => Function.update r i p) fun _ _ => 0).trans (by
    funext i j
    simp only [Function.update_apply, mat]
    by_cases h : i = j <;> simp [h, eq_comm])

/-! ### Concrete cases -/

example : MultiType.Implements (ops (n := 3) (2 : ℚ)) (fun x => mat 3 2 *ᵥ x) (fun x => (mat 3 2)ᵀ *ᵥ x)
    fun x => (mat 3 2)ᴴ *ᵥ x := C65_products 2

example : solve (2 : ℚ) (fun _ : Fin 3 => 0) (fun i => i) 2 = 1 := by
  rw [solve, MultiType.each_eq]
  norm_num

end ScaledId
end Istl

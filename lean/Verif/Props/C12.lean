import Verif.Props.C09
import Mathlib.Algebra.Order.BigOperators.Group.Finset
import Mathlib.Algebra.Order.Ring.Rat

/-! # C12 — matrix norms have their defining value -/

namespace Istl
open SpMat

private theorem foldl_add_map {E R : Type} [AddCommMonoid R] (g : E → R) (l : List E) (s : R) :
    l.foldl (fun s e => s + g e) s = s + (l.map g).sum := by
  induction l generalizing s with
  | nil => simp
  | cons e l ih => rw [List.foldl_cons, ih]; simp [add_assoc]

/-- `frobenius_norm2()` is the sum over all matrix positions of the squared block norms. -/
theorem C12_frobenius {B R : Type} [Zero B] [AddCommMonoid R] (nrm2 : B → R) (h0 : nrm2 0 = 0) (A : SpMat B) (hA : A.WF) :
    A.frobeniusNorm2 nrm2 = ∑ i ∈ Finset.range A.n, ∑ j ∈ Finset.range A.m, nrm2 (A.entry i j) := by
  unfold frobeniusNorm2
  have key : ∀ n, (∀ i < n, i < A.n) →
      forRange n (fun i sum => (A.row i).foldl (fun sum e => sum + nrm2 e.2) sum) 0 =
      ∑ i ∈ Finset.range n, ∑ j ∈ Finset.range A.m, nrm2 (A.entry i j) := by
    intro n
    induction n with
    | zero => intro _; simp
    | succ n ih =>
      intro h
      rw [forRange_succ, ih (fun i hi => h i (by omega)), foldl_add_map, Finset.sum_range_succ]
      congr 1
      have hn := h n (by omega)
      rw [← Row.sum_val _ (hA n hn).1 A.m (hA n hn).2 (fun _ b => nrm2 b) (by simp [h0])]
      rfl
  exact key A.n (fun i hi => hi)

section Inf
variable {B R : Type} [Zero B] [AddCommMonoid R] [LinearOrder R]

/-- the row sum of absolute values, over all columns -/
def rowSum (nrm : B → R) (A : SpMat B) (i : Nat) : R := ∑ j ∈ Finset.range A.m, nrm (A.entry i j)

/-- `infinity_norm()` is the largest row sum: an upper bound of all row sums (and of 0), and attained. -/
theorem C12_infinity (nrm : B → R) (h0 : nrm 0 = 0) (A : SpMat B) (hA : A.WF) :
    0 ≤ A.infinityNorm nrm ∧ (∀ i < A.n, rowSum nrm A i ≤ A.infinityNorm nrm) ∧
    (A.infinityNorm nrm = 0 ∨ ∃ i < A.n, A.infinityNorm nrm = rowSum nrm A i) := by
  unfold infinityNorm
  have key : ∀ n, (∀ i < n, i < A.n) → ∀ N, N = forRange n
      (fun i norm => max ((A.row i).foldl (fun sum e => sum + nrm e.2) 0) norm) (0 : R) →
      0 ≤ N ∧ (∀ i < n, rowSum nrm A i ≤ N) ∧ (N = 0 ∨ ∃ i < n, N = rowSum nrm A i) := by
    intro n
    induction n with
    | zero => intro _ N hN; simp at hN; simp [hN]
    | succ n ih =>
      intro h N hN
      rw [forRange_succ] at hN
      obtain ⟨h1, h2, h3⟩ := ih (fun i hi => h i (by omega)) _ rfl
      have hn := h n (by omega)
      have hrs : (A.row n).foldl (fun sum e => sum + nrm e.2) 0 = rowSum nrm A n := by
        rw [foldl_add_map, zero_add, rowSum,
          ← Row.sum_val _ (hA n hn).1 A.m (hA n hn).2 (fun _ b => nrm b) (by simp [h0])]
        rfl
      rw [hrs] at hN
      set N' := forRange n (fun i norm => max ((A.row i).foldl (fun sum e => sum + nrm e.2) 0) norm) (0 : R) with hN'
      refine ⟨?_, ?_, ?_⟩
      · rw [hN]; exact le_max_of_le_right h1
      · intro i hi
        rcases Nat.lt_succ_iff_lt_or_eq.mp hi with hlt | heq
        · rw [hN]; exact le_max_of_le_right (h2 i hlt)
        · subst heq; rw [hN]; exact le_max_left _ _
      · rcases le_total N' (rowSum nrm A n) with hle | hle
        · right; exact ⟨n, by omega, by rw [hN, max_eq_left hle]⟩
        · rw [max_eq_right hle] at hN
          rw [hN]
          rcases h3 with h3 | ⟨i, hi, h3⟩
          · exact Or.inl h3
          · exact Or.inr ⟨i, by omega, h3⟩
  exact key A.n (fun i hi => hi) _ rfl

end Inf

/-- `infinity_norm` bounds the operator: if every block of `x` has norm at most `c`, every block of `A x` has norm at
most `infinity_norm() * c`, for any sub-multiplicative block norms. -/
theorem C12_infinity_bound {B X Y R : Type} [AddCommGroup B] [AddCommGroup X] [AddCommGroup Y]
    [Field R] [LinearOrder R] [IsStrictOrderedRing R] (β : BlockAct B X Y) (nB : B → R) (nX : X → R) (nY : Y → R)
    (hB0 : nB 0 = 0) (hBpos : ∀ b, 0 ≤ nB b) (hY0 : nY 0 = 0) (htri : ∀ y y', nY (y + y') ≤ nY y + nY y')
    (hsub : ∀ b x, nY (β.mul b x) ≤ nB b * nX x)
    (A : SpMat B) (hA : A.WF) (x : Nat → X) (y : Nat → Y) (c : R) (hc : ∀ j < A.m, nX (x j) ≤ c) (hc0 : 0 ≤ c)
    (i : Nat) (hi : i < A.n) : nY (A.mv β x y i) ≤ A.infinityNorm nB * c := by
  rw [C09_mv β A hA, if_pos hi]
  have h1 : ∀ m', nY (∑ j ∈ Finset.range m', β.mul (A.entry i j) (x j)) ≤
      ∑ j ∈ Finset.range m', nY (β.mul (A.entry i j) (x j)) := by
    intro m'
    induction m' with
    | zero => simp [hY0]
    | succ m' ih =>
      rw [Finset.sum_range_succ, Finset.sum_range_succ]
      exact le_trans (htri _ _) (by linarith)
  calc nY (∑ j ∈ Finset.range A.m, β.mul (A.entry i j) (x j))
      ≤ ∑ j ∈ Finset.range A.m, nY (β.mul (A.entry i j) (x j)) := h1 A.m
    _ ≤ ∑ j ∈ Finset.range A.m, nB (A.entry i j) * c := by
        apply Finset.sum_le_sum
        intro j hj
        exact le_trans (hsub _ _) (mul_le_mul_of_nonneg_left (hc j (Finset.mem_range.mp hj)) (hBpos _))
    _ = rowSum nB A i * c := by rw [rowSum, Finset.sum_mul]
    _ ≤ A.infinityNorm nB * c := mul_le_mul_of_nonneg_right ((C12_infinity nB hB0 A hA).2.1 i hi) hc0

/-- Non-vacuity: for the example matrix with absolute values the norms are as computed by hand. -/
example : exA.infinityNorm (fun b : ℤ => |b|) = 13 := by decide
example : exA.frobeniusNorm2 (fun b : ℤ => b * b) = 4 + 1 + 25 + 49 + 1 := by decide

end Istl

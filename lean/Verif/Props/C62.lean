import Verif.Lemmas.MultiType
import Mathlib.Algebra.Field.Defs
import Mathlib.Algebra.Field.Rat
import Mathlib.Algebra.Order.Ring.Rat
import Mathlib.Tactic.NormNum
import Mathlib.Algebra.Module.Prod

/-! # C62 — matrices and vectors of blocks of different types -/

namespace Istl
open MultiType
variable {R : Type} [Ring R] {n m : Nat}

/-- Arithmetic on a `MultiTypeBlockVector` is the entrywise one, its size, scalar product and norms are those of the entries
put together. -/
theorem C62_vector {X : Fin n → Type} [∀ i, AddCommGroup (X i)] [∀ i, Module R (X i)] (x y c : ∀ i, X i) (w : R)
    (dim : ∀ i, X i → Nat) (dot : ∀ i, X i → X i → R) (nrm : ∀ i, X i → R) :
    vassign c x = c ∧ vadd x y = x + y ∧ vsub x y = x - y ∧ vscale w x = w • x ∧ vaxpy x w y = x + w • y ∧
    vdim dim x = ∑ i, dim i (x i) ∧ vdot dot x y = ∑ i, dot i (x i) (y i) ∧ vsum nrm x = ∑ i, nrm i (x i) := by
  refine ⟨each_eq _ _, each_eq _ _, each_eq _ _, each_eq _ _, each_eq _ _, ?_, ?_, ?_⟩
  · exact (loop_add (fun i => dim i (x i)) 0).trans (zero_add _)
  · exact (loop_add (fun i => dot i (x i) (y i)) 0).trans (zero_add _)
  · exact (loop_add (fun i => nrm i (x i)) 0).trans (zero_add _)

/-- The maximum norm (field without NaN) of a nonempty tuple bounds the entries' norms and is one of them. -/
theorem C62_vector_max [LinearOrder R] {X : Fin n → Type} [∀ i, AddCommGroup (X i)] (x : ∀ i, X i)
    (nrm : ∀ i, X i → R) (h0 : ∀ i a, 0 ≤ nrm i a) :
    (∀ i, nrm i (x i) ≤ vmax nrm x) ∧ (0 < n → ∃ i, vmax nrm x = nrm i (x i)) ∧ (n = 0 → vmax nrm x = 0) := by
  obtain ⟨h1, h2, h3⟩ := foldl_max (fun i => nrm i (x i)) (List.finRange n) 0
  refine ⟨fun i => h2 i (List.mem_finRange i), fun hn => ?_, ?_⟩
  · rcases h3 with h | ⟨j, _, h⟩
    · refine ⟨⟨0, hn⟩, le_antisymm ?_ (h2 _ (List.mem_finRange _))⟩
      have h' : vmax nrm x = 0 := h
      rw [h']
      exact h0 _ _
    · exact ⟨j, h⟩
  · rintro rfl
    rfl

/-- The products of a `MultiTypeBlockMatrix` whose blocks compute `f_ij`, `t_ij`, `h_ij` are those of the assembled block
matrix, and its transposed products use the block in row `i`, column `j` to go from entry `i` to entry `j`. The container
meets the same interface as its blocks, so the statement applies to nested tuples again. -/
theorem C62_products {X : Fin m → Type} {Y : Fin n → Type} [∀ j, AddCommGroup (X j)] [∀ i, AddCommGroup (Y i)]
    [∀ j, Module R (X j)] [∀ i, Module R (Y i)] (A : ∀ i j, BlockOps R (X j) (Y i)) (f : ∀ i j, X j → Y i)
    (t h : ∀ i j, Y i → X j) (hA : ∀ i j, Implements (A i j) (f i j) (t i j) (h i j)) :
    Implements (ops A) (fun x i => ∑ j, f i j (x j)) (fun y j => ∑ i, t i j (y i)) (fun y j => ∑ i, h i j (y i)) ∧
    (∀ x y, mv A x y = fun i => ∑ j, f i j (x j)) ∧ ∀ x y, mtv A x y = fun j => ∑ i, t i j (x i) := by
  have h1 : ∀ x y, umv A x y = y + fun i => ∑ j, f i j (x j) := by
    intro x y
    unfold umv
    rw [each2_eq]
    funext i
    simp only [(hA i _).umv]
    exact loop_add (fun j => f i j (x j)) (y i)
  have h2 : ∀ x y, umtv A x y = y + fun j => ∑ i, t i j (x i) := by
    intro x y
    unfold umtv
    rw [each2_eq]
    funext i
    simp only [(hA _ i).umtv]
    exact loop_add (fun j => t j i (x j)) (y i)
  refine ⟨⟨h1, ?_, ?_, h2, ?_, ?_, ?_, ?_, ?_⟩, ?_, ?_⟩
  · intro x y
    show mmv A x y = _
    unfold mmv
    rw [each2_eq]
    funext i
    simp only [(hA i _).mmv]
    exact loop_sub (fun j => f i j (x j)) (y i)
  · intro α x y
    show usmv A α x y = _
    unfold usmv
    rw [each2_eq]
    funext i
    simp only [(hA i _).usmv]
    rw [loop_add (fun j => α • f i j (x j)) (y i), ← Finset.smul_sum]
    rfl
  · intro x y
    show mmtv A x y = _
    unfold mmtv
    rw [each2_eq]
    funext i
    simp only [(hA _ i).mmtv]
    exact loop_sub (fun j => t j i (x j)) (y i)
  · intro α x y
    show usmtv A α x y = _
    unfold usmtv
    rw [each2_eq]
    funext i
    simp only [(hA _ i).usmtv]
    rw [loop_add (fun j => α • t j i (x j)) (y i), ← Finset.smul_sum]
    rfl
  · intro x y
    show umhv A x y = _
    unfold umhv
    rw [each2_eq]
    funext i
    simp only [(hA _ i).umhv]
    exact loop_add (fun j => h j i (x j)) (y i)
  · intro x y
    show mmhv A x y = _
    unfold mmhv
    rw [each2_eq]
    funext i
    simp only [(hA _ i).mmhv]
    exact loop_sub (fun j => h j i (x j)) (y i)
  · intro α x y
    show usmhv A α x y = _
    unfold usmhv
    rw [each2_eq]
    funext i
    simp only [(hA _ i).usmhv]
    rw [loop_add (fun j => α • h j i (x j)) (y i), ← Finset.smul_sum]
    rfl
  · intro x y
    unfold mv
    rw [h1]
    unfold vassign
    rw [each_eq]
    funext i
    exact zero_add _
  · intro x y
    unfold mtv
    rw [h2]
    unfold vassign
    rw [each_eq]
    funext i
    exact zero_add _

/-- The transposed products are adjoint to the products with respect to the container's scalar product, if they are for every
block: `⟨y, A x⟩ = ⟨Aᵀ y, x⟩`. -/
theorem C62_transpose {X : Fin m → Type} {Y : Fin n → Type} [∀ j, AddCommGroup (X j)] [∀ i, AddCommGroup (Y i)]
    [∀ j, Module R (X j)] [∀ i, Module R (Y i)] (A : ∀ i j, BlockOps R (X j) (Y i)) (f : ∀ i j, X j → Y i)
    (t h : ∀ i j, Y i → X j) (hA : ∀ i j, Implements (A i j) (f i j) (t i j) (h i j)) (dX : ∀ j, X j → X j → R)
    (dY : ∀ i, Y i → Y i → R) (hX : ∀ j (a b c : X j), dX j (a + b) c = dX j a c + dX j b c)
    (hY : ∀ i (a b c : Y i), dY i a (b + c) = dY i a b + dY i a c)
    (hT : ∀ i j y x, dY i y (f i j x) = dX j (t i j y) x) (x : ∀ j, X j) (y : ∀ i, Y i) (y0 : ∀ i, Y i) (x0 : ∀ j, X j) :
    vdot dY y (mv A x y0) = vdot dX (mtv A y x0) x := by
  obtain ⟨_, hm, ht⟩ := C62_products A f t h hA
  rw [hm, ht]
  have e1 := (C62_vector y (fun i => ∑ j, f i j (x j)) y (0 : R) (fun _ _ => 0) dY (fun _ _ => 0)).2.2.2.2.2.2.1
  have e2 := (C62_vector (fun j => ∑ i, t i j (y i)) x x (0 : R) (fun _ _ => 0) dX (fun _ _ => 0)).2.2.2.2.2.2.1
  rw [e1, e2]
  have s1 : ∀ i, dY i (y i) (∑ j, f i j (x j)) = ∑ j, dY i (y i) (f i j (x j)) := fun i =>
    map_sum (AddMonoidHom.mk' (dY i (y i)) (hY i (y i))) _ _
  have s2 : ∀ j, dX j (∑ i, t i j (y i)) (x j) = ∑ i, dX j (t i j (y i)) (x j) := fun j =>
    map_sum (AddMonoidHom.mk' (fun a => dX j a (x j)) (fun a b => hX j a b (x j))) _ _
  simp only [s1, s2, hT]
  exact Finset.sum_comm

/-- Entrywise arithmetic, Frobenius norm and row-sum norm of a `MultiTypeBlockMatrix`. -/
theorem C62_matrix_arithmetic {B : Fin n → Fin m → Type} [∀ i j, AddCommGroup (B i j)] [∀ i j, Module R (B i j)]
    (A C : ∀ i j, B i j) (k : R) (nrm : ∀ i j, B i j → R) :
    madd A C = A + C ∧ msub A C = A - C ∧ mscale k A = k • A ∧ frobenius2 nrm A = ∑ i, ∑ j, nrm i j (A i j) := by
  refine ⟨?_, ?_, ?_, ?_⟩
  · unfold madd
    rw [each_eq]
    exact funext fun i => each_eq _ _
  · unfold msub
    rw [each_eq]
    exact funext fun i => each_eq _ _
  · unfold mscale
    rw [each_eq]
    exact funext fun i => each_eq _ _
  · unfold frobenius2
    simp only [loop_add (fun j => nrm _ j (A _ j))]
    exact (loop_add (fun i => ∑ j, nrm i j (A i j)) 0).trans (zero_add _)

/-- The row-sum norm bounds every row sum of block norms and is attained. -/
theorem C62_infinity_norm [LinearOrder R] [IsOrderedRing R] {B : Fin n → Fin m → Type} (A : ∀ i j, B i j)
    (nrm : ∀ i j, B i j → R) (h0 : ∀ i j a, 0 ≤ nrm i j a) :
    (∀ i, ∑ j, nrm i j (A i j) ≤ infinityNorm nrm A) ∧
    (0 < n → ∃ i, infinityNorm nrm A = ∑ j, nrm i j (A i j)) ∧ (n = 0 → infinityNorm nrm A = 0) := by
  have e : ∀ i, (List.finRange m).foldl (fun t j => t + nrm i j (A i j)) 0 = ∑ j, nrm i j (A i j) := fun i =>
    (loop_add (fun j => nrm i j (A i j)) 0).trans (zero_add _)
  obtain ⟨h1, h2, h3⟩ := foldl_max (fun i => ∑ j, nrm i j (A i j)) (List.finRange n) 0
  unfold infinityNorm
  simp only [e]
  refine ⟨fun i => h2 i (List.mem_finRange i), fun hn => ?_, ?_⟩
  · rcases h3 with h | ⟨j, _, h⟩
    · refine ⟨⟨0, hn⟩, le_antisymm ?_ (h2 _ (List.mem_finRange _))⟩
      rw [h]
      exact Finset.sum_nonneg fun j _ => h0 _ _ _
    · exact ⟨j, h⟩
  · rintro rfl
    rfl

/-! ## Relaxation steps -/
section Steps
variable {X Y : Fin n → Type} [∀ i, AddCommGroup (X i)] [∀ i, AddCommGroup (Y i)] [∀ i, Module R (X i)]
  (A : ∀ i j, BlockOps R (X j) (Y i)) (f : ∀ i j, X j → Y i) (inner : ∀ i, X i → Y i → X i)

/-- What the four steps compute, for any inner step on the diagonal blocks. Jacobi: every correction is the inner step started
from `0` on the residual. SOR: the correction of entry `i` is the inner step *started from `x_i`* on the residual formed with the
new values before (`bsorf`) or behind (`bsorb`) `i`. Gauss-Seidel: a mean of the old `x` and of `g`, where `g_i` is the inner
step started from `x_i` on the *whole* residual, the diagonal block included. -/
theorem C62_steps (hA : ∀ i j x y, (A i j).mmv x y = y - f i j x) (w : R) (b : ∀ i, Y i) (x : ∀ i, X i) :
    (∀ i, dbjac A inner w b x i = x i + w • inner i 0 (b i - ∑ j, f i j (x j))) ∧
    (∀ i, bsorf A inner w b x i = x i + w • inner i (x i) (b i -
      (∑ j ∈ Finset.univ.filter (· < i), f i j (bsorf A inner w b x j) + ∑ j ∈ Finset.univ.filter (¬ · < i), f i j (x j)))) ∧
    (∀ i, bsorb A inner w b x i = x i + w • inner i (x i) (b i -
      (∑ j ∈ Finset.univ.filter (i < ·), f i j (bsorb A inner w b x j) + ∑ j ∈ Finset.univ.filter (¬ i < ·), f i j (x j)))) ∧
    ∃ g : ∀ i, X i, (∀ i, dbgs A inner w b x i = w • g i + (1 - w) • x i) ∧
      ∀ i, g i = inner i (x i) (b i - (∑ j ∈ Finset.univ.filter (· < i), f i j (g j) +
        ∑ j ∈ Finset.univ.filter (¬ · < i), f i j (x j))) := by
  refine ⟨?_, ?_, ?_, ?_⟩
  · intro i
    unfold dbjac vaxpy vassign
    rw [each_eq, each_eq]
    have := foldl_each (fun i v => inner i v (calcRhs A x i (b i))) (List.finRange n) (List.nodup_finRange n)
      (fun _ => 0) i
    rw [if_pos (List.mem_finRange i)] at this
    show x i + w • _ = _
    rw [this, calcRhs_eq A f hA]
  · intro i
    have e : bsorf A inner w b x = (List.finRange n).foldl
        (fun z i => Function.update z i (z i + w • inner i (x i) (calcRhs A z i (b i)))) x :=
      sor_foldl A inner w b _ (List.nodup_finRange n) x x x fun _ _ => rfl
    have s := sweep_up (fun i z => z i + w • inner i (x i) (calcRhs A z i (b i))) x i
    rw [e, s]
    simp only [lt_irrefl, if_false]
    rw [calcRhs_eq A f hA, sum_mixed]
  · intro i
    have e : bsorb A inner w b x = (List.finRange n).reverse.foldl
        (fun z i => Function.update z i (z i + w • inner i (x i) (calcRhs A z i (b i)))) x :=
      sor_foldl A inner w b _ (List.nodup_reverse.mpr (List.nodup_finRange n)) x x x fun _ _ => rfl
    have s := sweep_down (fun i z => z i + w • inner i (x i) (calcRhs A z i (b i))) x i
    rw [e, s]
    simp only [lt_irrefl, if_false]
    rw [calcRhs_eq A f hA, sum_mixed]
  · refine ⟨dbgsRows A inner b x, fun i => ?_, fun i => ?_⟩
    · unfold dbgs vaxpy vscale
      rw [each_eq, each_eq]
    · have s := sweep_up (fun i z => inner i (z i) (calcRhs A z i (b i))) x i
      have e : dbgsRows A inner b x = (List.finRange n).foldl
        (fun z i => Function.update z i (inner i (z i) (calcRhs A z i (b i)))) x := rfl
      rw [e, s]
      simp only [lt_irrefl, if_false]
      rw [calcRhs_eq A f hA, sum_mixed]

/-- With an exact solve on the diagonal blocks, Jacobi and SOR steps satisfy their splittings: `D (x' - x) = w (b - A x)`,
`D (x' - x) = w (b - L x' - (D+U) x)` and the mirrored equation. -/
theorem C62_exact_blocks [∀ i, Module R (Y i)] (hA : ∀ i j x y, (A i j).mmv x y = y - f i j x)
    (hin : ExactInner f inner) (hw : ∀ i (c : R) (a : X i), f i i (c • a) = c • f i i a) (w : R) (b : ∀ i, Y i)
    (x : ∀ i, X i) (i : Fin n) :
    f i i (dbjac A inner w b x i - x i) = w • (b i - ∑ j, f i j (x j)) ∧
    f i i (bsorf A inner w b x i - x i) = w • (b i -
      (∑ j ∈ Finset.univ.filter (· < i), f i j (bsorf A inner w b x j) + ∑ j ∈ Finset.univ.filter (¬ · < i), f i j (x j))) ∧
    f i i (bsorb A inner w b x i - x i) = w • (b i -
      (∑ j ∈ Finset.univ.filter (i < ·), f i j (bsorb A inner w b x j) +
        ∑ j ∈ Finset.univ.filter (¬ i < ·), f i j (x j))) := by
  obtain ⟨h1, h2, h3, _⟩ := C62_steps A f inner hA w b x
  refine ⟨?_, ?_, ?_⟩
  · rw [h1, add_sub_cancel_left, hw, hin]
  · conv_lhs => rw [h2]
    rw [add_sub_cancel_left, hw, hin]
  · conv_lhs => rw [h3]
    rw [add_sub_cancel_left, hw, hin]

/-- Exact solutions: the Jacobi step keeps them if the inner step maps the zero problem to zero; a SOR step keeps a solution
`x` exactly if `w • inner_i(x_i, 0) = 0` for every block, i.e. if the inner step started *from `x_i`* solves the zero problem. -/
theorem C62_solutions_kept (hA : ∀ i j x y, (A i j).mmv x y = y - f i j x) (w : R) (b : ∀ i, Y i)
    (x : ∀ i, X i) (hx : Solves f b x) :
    ((∀ i, inner i 0 0 = 0) → dbjac A inner w b x = x) ∧
    (bsorf A inner w b x = x ↔ ∀ i, w • inner i (x i) 0 = 0) ∧
    (bsorb A inner w b x = x ↔ ∀ i, w • inner i (x i) 0 = 0) := by
  obtain ⟨h1, h2, h3, _⟩ := C62_steps A f inner hA w b x
  have mix : ∀ (i : Fin n) (P : Fin n → Prop) [DecidablePred P] (z : ∀ i, X i), (∀ j, P j → z j = x j) →
      b i - (∑ j ∈ Finset.univ.filter P, f i j (z j) + ∑ j ∈ Finset.univ.filter (fun j => ¬ P j), f i j (x j)) = 0 := by
    intro i P _ z hz
    rw [← sum_mixed f i P x z, ← hx i, sub_eq_zero]
    refine Finset.sum_congr rfl fun j _ => ?_
    by_cases hj : P j
    · rw [if_pos hj, hz j hj]
    · rw [if_neg hj]
  refine ⟨?_, ?_, ?_⟩
  · intro h0
    funext i
    rw [h1, hx i, sub_self, h0, smul_zero, add_zero]
  · constructor
    · intro h i
      have := h2 i
      rw [mix i (· < i) _ fun j _ => by rw [h]] at this
      rw [h] at this
      exact left_eq_add.mp this
    · intro h
      funext i
      induction i using WellFoundedLT.induction with
      | _ i ih => rw [h2, mix i (· < i) _ fun j hj => ih j hj, h, add_zero]
  · constructor
    · intro h i
      have := h3 i
      rw [mix i (i < ·) _ fun j _ => by rw [h]] at this
      rw [h] at this
      exact left_eq_add.mp this
    · intro h
      funext i
      induction i using WellFoundedGT.induction with
      | _ i ih => rw [h3, mix i (i < ·) _ fun j hj => ih j hj, h, add_zero]

/-- With an exact solve on invertible diagonal blocks, Jacobi and SOR steps keep exact solutions. -/
theorem C62_exact_blocks_keep_solutions (hA : ∀ i j x y, (A i j).mmv x y = y - f i j x) (hin : ExactInner f inner)
    (h0 : ∀ i, f i i 0 = 0) (hinj : ∀ i, Function.Injective (f i i)) (w : R) (b : ∀ i, Y i)
    (x : ∀ i, X i) (hx : Solves f b x) :
    dbjac A inner w b x = x ∧ bsorf A inner w b x = x ∧ bsorb A inner w b x = x := by
  have hz : ∀ i v, inner i v 0 = 0 := fun i v => hinj i (by rw [hin, h0])
  obtain ⟨h1, h2, h3⟩ := C62_solutions_kept A f inner hA w b x hx
  exact ⟨h1 fun i => hz i 0, h2.mpr fun i => by rw [hz, smul_zero], h3.mpr fun i => by rw [hz, smul_zero]⟩

end Steps

/-- The Gauss-Seidel step for `MultiTypeBlockMatrix` does *not* keep exact solutions: with an exact solve on invertible
diagonal blocks and `w ≠ 0` it keeps a solution `x` only if `x = 0`, because it solves for the correction but stores it as the
new iterate (compare `C25_exact_solution_is_fixed` for the step on a `BCRSMatrix`). -/
theorem C62_dbgs_keeps_only_zero {R : Type} [DivisionRing R] {X Y : Fin n → Type} [∀ i, AddCommGroup (X i)]
    [∀ i, AddCommGroup (Y i)] [∀ i, Module R (X i)] (A : ∀ i j, BlockOps R (X j) (Y i)) (f : ∀ i j, X j → Y i)
    (inner : ∀ i, X i → Y i → X i) (hA : ∀ i j x y, (A i j).mmv x y = y - f i j x) (hin : ExactInner f inner)
    (h0 : ∀ i, f i i 0 = 0) (hinj : ∀ i, Function.Injective (f i i)) (w : R) (hw : w ≠ 0) (b : ∀ i, Y i)
    (x : ∀ i, X i) (hx : Solves f b x) : dbgs A inner w b x = x ↔ x = 0 := by
  obtain ⟨g, h1, h2⟩ := (C62_steps A f inner hA w b x).2.2.2
  have hz : ∀ i v, inner i v 0 = 0 := fun i v => hinj i (by rw [hin, h0])
  have mix : ∀ (i : Fin n) (P : Fin n → Prop) [DecidablePred P] (z : ∀ i, X i), (∀ j, P j → z j = x j) →
      b i - (∑ j ∈ Finset.univ.filter P, f i j (z j) + ∑ j ∈ Finset.univ.filter (fun j => ¬ P j), f i j (x j)) = 0 := by
    intro i P _ z hz
    rw [← sum_mixed f i P x z, ← hx i, sub_eq_zero]
    refine Finset.sum_congr rfl fun j _ => ?_
    by_cases hj : P j
    · rw [if_pos hj, hz j hj]
    · rw [if_neg hj]
  constructor
  · intro h
    have hg : ∀ i, g i = x i := by
      intro i
      have e := h1 i
      rw [h, sub_smul, one_smul] at e
      have e2 : w • (g i - x i) = 0 := by
        rw [smul_sub]
        have : x i + (w • g i - w • x i) = x i + 0 := by rw [add_zero]; conv_rhs => rw [e]
                                                         abel
        exact add_left_cancel this
      have e3 : w⁻¹ • (w • (g i - x i)) = 0 := by rw [e2, smul_zero]
      rw [smul_smul, inv_mul_cancel₀ hw, one_smul] at e3
      exact sub_eq_zero.mp e3
    funext i
    rw [← hg i, h2 i, mix i (· < i) g fun j _ => hg j, hz]
    rfl
  · rintro rfl
    funext i
    have hg : ∀ i, g i = 0 := by
      intro i
      induction i using WellFoundedLT.induction with
      | _ i ih => rw [h2, mix i (· < i) g fun j hj => ih j hj, hz]
    rw [h1, hg]
    simp

/-! ## A concrete matrix: a 2×2 tuple with entries of types `ℚ` and `ℚ × ℚ` -/

/-- The block types of the demonstration: a number and a pair. -/
def MtT : Fin 2 → Type
  | 0 => ℚ
  | 1 => ℚ × ℚ

instance : ∀ i, AddCommGroup (MtT i)
  | 0 => inferInstanceAs (AddCommGroup ℚ)
  | 1 => inferInstanceAs (AddCommGroup (ℚ × ℚ))

instance : ∀ i, Module ℚ (MtT i)
  | 0 => inferInstanceAs (Module ℚ ℚ)
  | 1 => inferInstanceAs (Module ℚ (ℚ × ℚ))

instance : ∀ i, DecidableEq (MtT i)
  | 0 => inferInstanceAs (DecidableEq ℚ)
  | 1 => inferInstanceAs (DecidableEq (ℚ × ℚ))

/-- Entry 0 as a number. -/
def mtNum (a : MtT 0) : ℚ := a

/-- Entry 1 as a pair. -/
def mtPair (a : MtT 1) : ℚ × ℚ := a

/-- The maps of the demonstration matrix `[[2, (1 0)], [(1 0)ᵀ, diag(2,4)]]`. -/
def mtF : ∀ i j : Fin 2, MtT j → MtT i
  | 0, 0 => fun (a : ℚ) => (2 * a : ℚ)
  | 0, 1 => fun (a : ℚ × ℚ) => a.1
  | 1, 0 => fun (a : ℚ) => ((a, 0) : ℚ × ℚ)
  | 1, 1 => fun (a : ℚ × ℚ) => ((2 * a.1, 4 * a.2) : ℚ × ℚ)

/-- The blocks: the matrix is symmetric, so the transposed block in row `i`, column `j` is the one in row `j`, column `i`. -/
def mtA : ∀ i j : Fin 2, BlockOps ℚ (MtT j) (MtT i) := fun i j =>
  { umv := fun x y => y + mtF i j x, mmv := fun x y => y - mtF i j x, usmv := fun α x y => y + α • mtF i j x
    umtv := fun x y => y + mtF j i x, mmtv := fun x y => y - mtF j i x, usmtv := fun α x y => y + α • mtF j i x
    umhv := fun x y => y + mtF j i x, mmhv := fun x y => y - mtF j i x, usmhv := fun α x y => y + α • mtF j i x }

/-- Exact solves on the diagonal blocks. -/
def mtInner : ∀ i : Fin 2, MtT i → MtT i → MtT i
  | 0 => fun _ (r : ℚ) => (r / 2 : ℚ)
  | 1 => fun _ (r : ℚ × ℚ) => ((r.1 / 2, r.2 / 4) : ℚ × ℚ)

/-- The solution `(1, (1, 1))`. -/
def mtX : ∀ i : Fin 2, MtT i
  | 0 => (1 : ℚ)
  | 1 => ((1, 1) : ℚ × ℚ)

/-- The right hand side `(3, (3, 4))`. -/
def mtB : ∀ i : Fin 2, MtT i
  | 0 => (3 : ℚ)
  | 1 => ((3, 4) : ℚ × ℚ)

/-- Non-vacuity: the demonstration matrix meets the hypotheses of the theorems above, the exact solution is a solution, and
it is not zero. -/
example : (∀ i j, Implements (mtA i j) (mtF i j) (mtF j i) (mtF j i)) ∧ ExactInner mtF mtInner ∧ Solves mtF mtB mtX ∧
    (∀ i, mtF i i 0 = 0) ∧ (∀ i, Function.Injective (mtF i i)) ∧ mtNum (mtX 0) ≠ 0 := by
  refine ⟨fun i j => ⟨?_, ?_, ?_, ?_, ?_, ?_, ?_, ?_, ?_⟩, ?_, ?_, ?_, ?_, ?_⟩
  iterate 9 · intros; rfl
  · intro i v r
    match i with
    | 0 => exact (mul_div_cancel₀ (mtNum r) two_ne_zero : 2 * (mtNum r / 2) = mtNum r)
    | 1 => exact (Prod.ext (mul_div_cancel₀ (mtPair r).1 two_ne_zero) (mul_div_cancel₀ (mtPair r).2 four_ne_zero) :
        (2 * ((mtPair r).1 / 2), 4 * ((mtPair r).2 / 4)) = mtPair r)
  · intro i
    match i with
    | 0 => decide +kernel
    | 1 => decide +kernel
  · intro i
    match i with
    | 0 => decide +kernel
    | 1 => decide +kernel
  · intro i a c h
    match i with
    | 0 => exact (mul_left_cancel₀ two_ne_zero (h : 2 * mtNum a = 2 * mtNum c) : mtNum a = mtNum c)
    | 1 =>
      have h' : (2 * (mtPair a).1, 4 * (mtPair a).2) = (2 * (mtPair c).1, 4 * (mtPair c).2) := h
      exact (Prod.ext (mul_left_cancel₀ two_ne_zero (congrArg Prod.fst h'))
        (mul_left_cancel₀ four_ne_zero (congrArg Prod.snd h')) : mtPair a = mtPair c)
  · decide +kernel

/-- On this matrix one undamped Gauss-Seidel step maps the exact solution `(1, (1,1))` to `(0, (1/2, 0))`. -/
theorem C62_dbgs_counterexample :
    mtNum (dbgs mtA mtInner (1 : ℚ) mtB mtX 0) = 0 ∧ mtPair (dbgs mtA mtInner (1 : ℚ) mtB mtX 1) = (1 / 2, 0) ∧
    mtNum (bsorf mtA mtInner (1 : ℚ) mtB mtX 0) = 1 := by
  decide +kernel

end Istl

import Verif.Lemmas.SpMat
import Mathlib.LinearAlgebra.Matrix.ToLin
import Mathlib.LinearAlgebra.Matrix.ConjTranspose

/-! # C09 — matrix-vector kernels compute the mathematical product -/

namespace Istl
open SpMat

variable {B X Y : Type} [AddCommGroup B] [AddCommGroup X] [AddCommGroup Y]

/-- `mv`: y_i = Σ_j a_ij x_j for every row; nothing else is written. -/
theorem C09_mv (β : BlockAct B X Y) (A : SpMat B) (hA : A.WF) (x : Nat → X) (y : Nat → Y) (i : Nat) :
    A.mv β x y i = if i < A.n then ∑ j ∈ Finset.range A.m, β.mul (A.entry i j) (x j) else y i := by
  unfold mv
  rw [forRange_rows A.n _ (fun i _ => ((A.row i).map (fun e => β.mul e.2 (x e.1))).sum)
    (by intro i y; rw [foldl_acc]; funext k; by_cases h : k = i <;> simp [upd, h]) (by intros; rfl)]
  split
  · rename_i h
    rw [← Row.sum_val _ (hA i h).1 A.m (hA i h).2 (fun j b => β.mul b (x j)) (by simp)]
    rfl
  · rfl

/-- `umv`: y_i += Σ_j a_ij x_j. -/
theorem C09_umv (β : BlockAct B X Y) (A : SpMat B) (hA : A.WF) (x : Nat → X) (y : Nat → Y) (i : Nat) :
    A.umv β x y i = if i < A.n then y i + ∑ j ∈ Finset.range A.m, β.mul (A.entry i j) (x j) else y i := by
  unfold umv
  rw [forRange_rows A.n _ (fun i y => y i + ((A.row i).map (fun e => β.mul e.2 (x e.1))).sum)
    (by intro i y; rw [foldl_acc]) (by intro i y y' h; simp [h])]
  split
  · rename_i h
    rw [← Row.sum_val _ (hA i h).1 A.m (hA i h).2 (fun j b => β.mul b (x j)) (by simp)]
    rfl
  · rfl

/-- `mmv`: y_i -= Σ_j a_ij x_j. -/
theorem C09_mmv (β : BlockAct B X Y) (A : SpMat B) (hA : A.WF) (x : Nat → X) (y : Nat → Y) (i : Nat) :
    A.mmv β x y i = if i < A.n then y i - ∑ j ∈ Finset.range A.m, β.mul (A.entry i j) (x j) else y i := by
  unfold mmv
  rw [forRange_rows A.n _ (fun i y => y i + ((A.row i).map (fun e => - β.mul e.2 (x e.1))).sum)
    (by intro i y; simp only [sub_eq_add_neg]; rw [foldl_acc]) (by intro i y y' h; simp [h])]
  split
  · rename_i h
    rw [← Row.sum_val _ (hA i h).1 A.m (hA i h).2 (fun j b => - β.mul b (x j)) (by simp)]
    rw [Finset.sum_neg_distrib, ← sub_eq_add_neg]
    rfl
  · rfl

/-- `usmv`: y_i += alpha Σ_j a_ij x_j. -/
theorem C09_usmv {K : Type} [Ring K] [Module K Y] (β : BlockAct B X Y) (alpha : K) (A : SpMat B) (hA : A.WF)
    (x : Nat → X) (y : Nat → Y) (i : Nat) :
    A.usmv β alpha x y i = if i < A.n then y i + alpha • ∑ j ∈ Finset.range A.m, β.mul (A.entry i j) (x j) else y i := by
  unfold usmv
  rw [forRange_rows A.n _ (fun i y => y i + ((A.row i).map (fun e => alpha • β.mul e.2 (x e.1))).sum)
    (by intro i y; rw [foldl_acc]) (by intro i y y' h; simp [h])]
  split
  · rename_i h
    rw [← Row.sum_val _ (hA i h).1 A.m (hA i h).2 (fun j b => alpha • β.mul b (x j)) (by simp)]
    rw [Finset.smul_sum]
    rfl
  · rfl

/-- Rows of a well-formed matrix have no entry at or beyond column `M()`. -/
theorem entry_zero_of_ge (A : SpMat B) (hA : A.WF) {i j : Nat} (hi : i < A.n) (hj : A.m ≤ j) : A.entry i j = 0 := by
  apply Row.val_of_not_mem
  intro b hb
  have := (hA i hi).2 _ hb
  simp at this
  omega

private theorem scatter (g : B → Nat → X) (hg : ∀ i, g 0 i = 0) (A : SpMat B) (hA : A.WF) (y : Nat → X) (j : Nat) :
    forRange A.n (fun i y => (A.row i).foldl (fun y e => upd y e.1 (y e.1 + g e.2 i)) y) y j =
      y j + ∑ i ∈ Finset.range A.n, g (A.entry i j) i := by
  rw [forRange_sum A.n _ (fun i k => ((A.row i).map (fun e => if e.1 = k then g e.2 i else 0)).sum)
    (by intro i y k; rw [foldl_scatter])]
  congr 1
  apply Finset.sum_congr rfl
  intro i hi
  rw [list_sum_ite_key _ (hA i (Finset.mem_range.mp hi)).1 j (fun b => g b i) (hg i)]
  rfl

/-- `umtv`: y_j += Σ_i a_ij^T x_i. -/
theorem C09_umtv (β : BlockAct B X Y) (A : SpMat B) (hA : A.WF) (x : Nat → Y) (y : Nat → X) (j : Nat) :
    A.umtv β x y j = y j + ∑ i ∈ Finset.range A.n, β.tmul (A.entry i j) (x i) :=
  scatter (fun b i => β.tmul b (x i)) (by simp) A hA y j

private theorem zeroLoop (m : Nat) (y : Nat → X) (j : Nat) :
    forRange m (fun i y => upd y i 0) y j = if j < m then 0 else y j := by
  rw [forRange_rows m _ (fun _ _ => 0) (by intros; rfl) (by intros; rfl)]

/-- `mtv`: y_j = Σ_i a_ij^T x_i for every column; nothing else is written. -/
theorem C09_mtv (β : BlockAct B X Y) (A : SpMat B) (hA : A.WF) (x : Nat → Y) (y : Nat → X) (j : Nat) :
    A.mtv β x y j = if j < A.m then ∑ i ∈ Finset.range A.n, β.tmul (A.entry i j) (x i) else y j := by
  unfold mtv
  rw [C09_umtv β A hA, zeroLoop]
  split
  · simp
  · rename_i h
    rw [Finset.sum_eq_zero, add_zero]
    intro i hi
    rw [entry_zero_of_ge A hA (Finset.mem_range.mp hi) (not_lt.mp h)]
    simp

/-- `mmtv`: y_j -= Σ_i a_ij^T x_i. -/
theorem C09_mmtv (β : BlockAct B X Y) (A : SpMat B) (hA : A.WF) (x : Nat → Y) (y : Nat → X) (j : Nat) :
    A.mmtv β x y j = y j - ∑ i ∈ Finset.range A.n, β.tmul (A.entry i j) (x i) := by
  unfold mmtv
  simp only [sub_eq_add_neg]
  rw [scatter (fun b i => - β.tmul b (x i)) (by simp) A hA y j, Finset.sum_neg_distrib]

/-- `usmtv`: y_j += alpha Σ_i a_ij^T x_i. -/
theorem C09_usmtv {K : Type} [Ring K] [Module K X] (β : BlockAct B X Y) (alpha : K) (A : SpMat B) (hA : A.WF)
    (x : Nat → Y) (y : Nat → X) (j : Nat) :
    A.usmtv β alpha x y j = y j + alpha • ∑ i ∈ Finset.range A.n, β.tmul (A.entry i j) (x i) := by
  unfold usmtv
  rw [scatter (fun b i => alpha • β.tmul b (x i)) (by simp) A hA y j, Finset.smul_sum]

/-- `umhv`: y_j += Σ_i a_ij^H x_i. -/
theorem C09_umhv (β : BlockAct B X Y) (A : SpMat B) (hA : A.WF) (x : Nat → Y) (y : Nat → X) (j : Nat) :
    A.umhv β x y j = y j + ∑ i ∈ Finset.range A.n, β.hmul (A.entry i j) (x i) :=
  scatter (fun b i => β.hmul b (x i)) (by simp) A hA y j

/-- `mmhv`: y_j -= Σ_i a_ij^H x_i. -/
theorem C09_mmhv (β : BlockAct B X Y) (A : SpMat B) (hA : A.WF) (x : Nat → Y) (y : Nat → X) (j : Nat) :
    A.mmhv β x y j = y j - ∑ i ∈ Finset.range A.n, β.hmul (A.entry i j) (x i) := by
  unfold mmhv
  simp only [sub_eq_add_neg]
  rw [scatter (fun b i => - β.hmul b (x i)) (by simp) A hA y j, Finset.sum_neg_distrib]

/-- `usmhv`: y_j += alpha Σ_i a_ij^H x_i. -/
theorem C09_usmhv {K : Type} [Ring K] [Module K X] (β : BlockAct B X Y) (alpha : K) (A : SpMat B) (hA : A.WF)
    (x : Nat → Y) (y : Nat → X) (j : Nat) :
    A.usmhv β alpha x y j = y j + alpha • ∑ i ∈ Finset.range A.n, β.hmul (A.entry i j) (x i) := by
  unfold usmhv
  rw [scatter (fun b i => alpha • β.hmul b (x i)) (by simp) A hA y j, Finset.smul_sum]

/-! ### Instances of the block contract: scalar entries and rectangular dense blocks -/

/-- Scalar entries (`BCRSMatrix<double>`): `Impl::asMatrix` of a number acts by multiplication. -/
def scalarAct (K : Type) [CommRing K] [StarRing K] : BlockAct K K K where
  mul := AddMonoidHom.mk' (fun b => AddMonoidHom.mk' (fun x => b * x) (by intros; ring))
    (by intros; ext; simp [add_mul])
  tmul := AddMonoidHom.mk' (fun b => AddMonoidHom.mk' (fun x => b * x) (by intros; ring))
    (by intros; ext; simp [add_mul])
  hmul := AddMonoidHom.mk' (fun b => AddMonoidHom.mk' (fun x => star b * x) (by intros; ring))
    (by intros; ext; simp [add_mul])

/-- Dense `FieldMatrix<K,p,q>` blocks. -/
def denseAct (K : Type) [CommRing K] [StarRing K] (p q : Nat) :
    BlockAct (Matrix (Fin p) (Fin q) K) (Fin q → K) (Fin p → K) where
  mul := AddMonoidHom.mk' (fun b => AddMonoidHom.mk' (fun x => b.mulVec x) (by intros; simp [Matrix.mulVec_add]))
    (by intros; ext; simp [Matrix.add_mulVec])
  tmul := AddMonoidHom.mk' (fun b => AddMonoidHom.mk' (fun x => b.transpose.mulVec x)
    (by intros; simp [Matrix.mulVec_add])) (by intros; ext; simp [Matrix.add_mulVec])
  hmul := AddMonoidHom.mk' (fun b => AddMonoidHom.mk' (fun x => b.conjTranspose.mulVec x)
    (by intros; simp [Matrix.mulVec_add])) (by intros; ext; simp [Matrix.add_mulVec, Matrix.conjTranspose_add])

/-- Example matrix: 3x4, second row empty, first column empty. -/
def exA : SpMat ℤ := ⟨3, 4, fun i => if i = 0 then [(1, 2), (3, -1)] else if i = 2 then [(1, 5), (2, 7), (3, 1)] else []⟩

/-- Non-vacuity: the example matrix is well-formed and its product is the expected one. -/
theorem exA_wf : exA.WF := by
  intro i hi
  simp only [exA] at hi ⊢
  interval_cases i <;> simp [Row.Asc]

example : (exA.mv (scalarAct ℤ) (fun j => (j : ℤ) + 1) (fun _ => 9)) 2 = 5 * 2 + 7 * 3 + 1 * 4 := by
  rw [C09_mv _ _ exA_wf]
  simp [exA, Finset.sum_range_succ, SpMat.entry, Row.val, scalarAct]

end Istl

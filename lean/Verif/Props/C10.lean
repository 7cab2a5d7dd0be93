import Verif.Props.C09

/-! # C10 — adjointness and linearity of the kernels -/

namespace Istl
open SpMat

variable {B X Y S : Type} [AddCommGroup B] [AddCommGroup X] [AddCommGroup Y] [AddCommGroup S]

/-- `⟨y, A x⟩ = ⟨A^T y, x⟩` with the global pairings summed block by block, for any block pairings that are adjoint
block-wise (bilinear ones for `mtv`). -/
theorem C10_mtv_adjoint (β : BlockAct B X Y) (pX : X →+ X →+ S) (pY : Y →+ Y →+ S)
    (hadj : ∀ b x y, pY y (β.mul b x) = pX (β.tmul b y) x)
    (A : SpMat B) (hA : A.WF) (x x' : Nat → X) (y y' : Nat → Y) :
    ∑ i ∈ Finset.range A.n, pY (y i) (A.mv β x y' i) = ∑ j ∈ Finset.range A.m, pX (A.mtv β y x' j) (x j) := by
  have h1 : ∀ i ∈ Finset.range A.n, pY (y i) (A.mv β x y' i) =
      ∑ j ∈ Finset.range A.m, pX (β.tmul (A.entry i j) (y i)) (x j) := by
    intro i hi
    rw [C09_mv β A hA, if_pos (Finset.mem_range.mp hi), map_sum]
    exact Finset.sum_congr rfl (fun j _ => hadj _ _ _)
  have h2 : ∀ j ∈ Finset.range A.m, pX (A.mtv β y x' j) (x j) =
      ∑ i ∈ Finset.range A.n, pX (β.tmul (A.entry i j) (y i)) (x j) := by
    intro j hj
    rw [C09_mtv β A hA, if_pos (Finset.mem_range.mp hj), map_sum, AddMonoidHom.finsetSum_apply]
  rw [Finset.sum_congr rfl h1, Finset.sum_congr rfl h2, Finset.sum_comm]

/-- The Hermitian kernel: `⟨y, A x⟩ = ⟨A^H y, x⟩` where `A^H y` is computed by `umhv` into a zero vector. -/
theorem C10_umhv_adjoint (β : BlockAct B X Y) (pX : X →+ X →+ S) (pY : Y →+ Y →+ S)
    (hadj : ∀ b x y, pY y (β.mul b x) = pX (β.hmul b y) x)
    (A : SpMat B) (hA : A.WF) (x : Nat → X) (y y' : Nat → Y) :
    ∑ i ∈ Finset.range A.n, pY (y i) (A.mv β x y' i) =
      ∑ j ∈ Finset.range A.m, pX (A.umhv β y (fun _ => 0) j) (x j) := by
  have h1 : ∀ i ∈ Finset.range A.n, pY (y i) (A.mv β x y' i) =
      ∑ j ∈ Finset.range A.m, pX (β.hmul (A.entry i j) (y i)) (x j) := by
    intro i hi
    rw [C09_mv β A hA, if_pos (Finset.mem_range.mp hi), map_sum]
    exact Finset.sum_congr rfl (fun j _ => hadj _ _ _)
  have h2 : ∀ j ∈ Finset.range A.m, pX (A.umhv β y (fun _ => 0) j) (x j) =
      ∑ i ∈ Finset.range A.n, pX (β.hmul (A.entry i j) (y i)) (x j) := by
    intro j hj
    rw [C09_umhv β A hA, zero_add, map_sum, AddMonoidHom.finsetSum_apply]
  rw [Finset.sum_congr rfl h1, Finset.sum_congr rfl h2, Finset.sum_comm]

/-- `mv` is additive and homogeneous in `x` (homogeneity for scalars that commute with the block action). -/
theorem C10_mv_linear {K : Type} [Ring K] [Module K X] [Module K Y] (β : BlockAct B X Y)
    (hK : ∀ (k : K) b x, β.mul b (k • x) = k • β.mul b x)
    (A : SpMat B) (hA : A.WF) (k : K) (x x' : Nat → X) (y : Nat → Y) (i : Nat) (hi : i < A.n) :
    A.mv β (fun j => x j + k • x' j) y i = A.mv β x y i + k • A.mv β x' y i := by
  simp only [C09_mv β A hA, if_pos hi, map_add, hK, Finset.sum_add_distrib, Finset.smul_sum]

/-- The `u`-variants update by the plain product: `umv = y + mv`, `mmv = y - mv`, `usmv = y + alpha mv`. -/
theorem C10_update_variants {K : Type} [Ring K] [Module K Y] (β : BlockAct B X Y) (A : SpMat B) (hA : A.WF) (alpha : K)
    (x : Nat → X) (y y' : Nat → Y) (i : Nat) (hi : i < A.n) :
    A.umv β x y i = y i + A.mv β x y' i ∧ A.mmv β x y i = y i - A.mv β x y' i ∧
      A.usmv β alpha x y i = y i + alpha • A.mv β x y' i := by
  simp [C09_mv β A hA, C09_umv β A hA, C09_mmv β A hA, C09_usmv β alpha A hA, hi]

/-- Non-vacuity: the block-wise adjointness hypotheses hold for scalars (bilinear pairing) and for dense complex-like
blocks with the sesquilinear pairing `Σ conj(u) v`. -/
example (K : Type) [CommRing K] [StarRing K] : ∀ b x y : K,
    (AddMonoidHom.mul y) ((scalarAct K).mul b x) = (AddMonoidHom.mul ((scalarAct K).tmul b y)) x := by
  intro b x y
  simp [scalarAct]
  ring

example (K : Type) [CommRing K] [StarRing K] (p q : Nat) : ∀ (b : Matrix (Fin p) (Fin q) K) (x : Fin q → K) (y : Fin p → K),
    star y ⬝ᵥ ((denseAct K p q).mul b x) = star ((denseAct K p q).hmul b y) ⬝ᵥ x := by
  intro b x y
  simp [denseAct, Matrix.star_mulVec, Matrix.dotProduct_mulVec]

end Istl

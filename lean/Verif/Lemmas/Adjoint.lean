import Verif.Spec.Adjoint
import Verif.Lemmas.AmgCycle2
import Mathlib.Tactic.NoncommRing
import Mathlib.Tactic.Ring

/-! Calculus of adjoints, and the linear operators of stationary iterations. -/

namespace Istl
variable {K V : Type} [CommRing K] [AddCommGroup V] [Module K V] {B : V → V → K}

namespace ScalarProd
variable (hB : ScalarProd B)
include hB
theorem add' (x y z : V) : B x (y + z) = B x y + B x z := by
  rw [hB.symm, hB.add, hB.symm y, hB.symm z]
theorem smul' (c : K) (x z : V) : B x (c • z) = c * B x z := by
  rw [hB.symm, hB.smul, hB.symm z]
theorem neg (x z : V) : B (-x) z = - B x z := by
  rw [← neg_one_smul K x, hB.smul]; ring
theorem neg' (x z : V) : B x (-z) = - B x z := by rw [hB.symm, hB.neg, hB.symm]
theorem sub (x y z : V) : B (x - y) z = B x z - B y z := by
  rw [sub_eq_add_neg, hB.add, hB.neg]; ring
theorem sub' (x y z : V) : B x (y - z) = B x y - B x z := by
  rw [hB.symm, hB.sub, hB.symm y, hB.symm z]
theorem zero (z : V) : B 0 z = 0 := by
  have := hB.smul 0 0 z
  rwa [zero_smul, zero_mul] at this
end ScalarProd

namespace Adjoint
variable {X Y X' Y' : Module.End K V}
theorem symm (hB : ScalarProd B) (h : Adjoint B X Y) : Adjoint B Y X := fun x y => by rw [hB.symm, ← h, hB.symm]
theorem one : Adjoint B (1 : Module.End K V) 1 := fun _ _ => rfl
theorem zero (hB : ScalarProd B) : Adjoint B (0 : Module.End K V) 0 := fun x y => by
  simp only [LinearMap.zero_apply]; rw [hB.zero, hB.symm, hB.zero]
theorem add (hB : ScalarProd B) (h : Adjoint B X Y) (h' : Adjoint B X' Y') : Adjoint B (X + X') (Y + Y') := fun x y => by
  simp only [LinearMap.add_apply, hB.add, hB.add', h x y, h' x y]
theorem sub (hB : ScalarProd B) (h : Adjoint B X Y) (h' : Adjoint B X' Y') : Adjoint B (X - X') (Y - Y') := fun x y => by
  simp only [LinearMap.sub_apply, hB.sub, hB.sub', h x y, h' x y]
theorem smul (hB : ScalarProd B) (c : K) (h : Adjoint B X Y) : Adjoint B (c • X) (c • Y) := fun x y => by
  simp only [LinearMap.smul_apply, hB.smul, hB.smul', h x y]
theorem mul (h : Adjoint B X Y) (h' : Adjoint B X' Y') : Adjoint B (X * X') (Y' * Y) := fun x y => by
  simp only [Module.End.mul_apply]; rw [h, h']
theorem pow (h : Adjoint B X Y) : ∀ k : Nat, Adjoint B (X ^ k) (Y ^ k)
  | 0 => one
  | k + 1 => by rw [pow_succ, pow_succ']; exact (pow h k).mul h
theorem congr {Z : Module.End K V} (h : Adjoint B X Y) (e : Y = Z) : Adjoint B X Z := e ▸ h
end Adjoint

namespace Amg

/-- The operator `b ↦` result of `k` steps of `u ← u + S (b - A u)` from `0`. -/
def relaxOp (A S : Module.End K V) : Nat → Module.End K V
  | 0 => 0
  | k + 1 => relaxOp A S k + (1 - S * A) ^ k * S

theorem relax_op (A S : Module.End K V) : ∀ (k : Nat) (b u : V), relax A S b k u = relaxOp A S k b + ((1 - S * A) ^ k) u := by
  intro k
  induction k with
  | zero => intro b u; simp [relax, relaxOp]
  | succ k ih =>
    intro b u
    rw [relax, ih, relaxOp, pow_succ]
    simp only [LinearMap.add_apply, Module.End.mul_apply, LinearMap.sub_apply, Module.End.one_apply, map_add, map_sub]
    abel

/-- `T A = 1 - (1 - S A)^k` -/
theorem relaxOp_mul (A S : Module.End K V) (k : Nat) : relaxOp A S k * A = 1 - (1 - S * A) ^ k := by
  induction k with
  | zero => simp [relaxOp]
  | succ k ih => rw [relaxOp, add_mul, ih, pow_succ, mul_assoc]; noncomm_ring

/-- `A T = 1 - (1 - A S)^k` -/
theorem mul_relaxOp (A S : Module.End K V) (k : Nat) : A * relaxOp A S k = 1 - (1 - A * S) ^ k := by
  have comm : ∀ k, A * (1 - S * A) ^ k = (1 - A * S) ^ k * A := by
    intro k
    induction k with
    | zero => simp
    | succ k ih => rw [pow_succ, ← mul_assoc, ih, pow_succ, mul_assoc, mul_assoc]; congr 1; noncomm_ring
  induction k with
  | zero => simp [relaxOp]
  | succ k ih => rw [relaxOp, mul_add, ih, ← mul_assoc, comm, pow_succ, mul_assoc]; noncomm_ring

theorem relaxOp_adj (hB : ScalarProd B) {A S S' : Module.End K V} (hA : Adjoint B A A) (hS : Adjoint B S S') (k : Nat) :
    Adjoint B (relaxOp A S k) (relaxOp A S' k) := by
  have comm : ∀ k, S' * (1 - A * S') ^ k = (1 - S' * A) ^ k * S' := by
    intro k
    induction k with
    | zero => simp
    | succ k ih => rw [pow_succ, ← mul_assoc, ih, pow_succ, mul_assoc, mul_assoc]; congr 1; noncomm_ring
  induction k with
  | zero => exact Adjoint.zero hB
  | succ k ih =>
    refine Adjoint.add hB ih (((Adjoint.pow (Adjoint.sub hB Adjoint.one (hS.mul hA)) k).mul hS).congr (comm k))

end Amg
end Istl

import Verif.Model.AmgSolve
import Verif.Spec.AmgHierarchy
import Verif.Spec.Energy

/-! # Specification: what AMG needs of its smoother and its coarse solver -/

namespace Istl
namespace Amg
variable {B K V : Type} [CommRing K] [AddCommGroup V] [Module K V]

/-- A block vector with `n` blocks. -/
def OfSize (n : Nat) (x : Nat → V) : Prop := ∀ i, n ≤ i → x i = 0

/-- The coarse solver solves `A x = d` exactly and says so. -/
def ExactSolver (act : B → V →+ V) (A : SpMat B) (cs : (Nat → V) → (Nat → V) → (Nat → V) × (Nat → V) × Bool) : Prop :=
  ∀ d, OfSize A.n d → OfSize A.n (cs 0 d).1 ∧ (∀ i < A.n, A.apply act (cs 0 d).1 i = d i) ∧ (cs 0 d).2.2 = true

/-- The smoother is good for the matrix: called with `v = 0` it applies linear operators to `d`, `S1` when pre- and `S2` when
post-smoothing, which are transposes of each other, and one step of `S1` reduces the energy of every error. -/
def SpdSmoother [LT K] (D : V → V → K) (act : B → V →+ V) (A : SpMat B) (sm : Smoother B V) : Prop :=
  ∃ S1 S2 : Module.End K (Nat → V), (∀ d, sm A true 0 d = .ok (S1 d)) ∧ (∀ d, sm A false 0 d = .ok (S2 d)) ∧
    (∀ d, OfSize A.n (S1 d) ∧ OfSize A.n (S2 d)) ∧ Adjoint (blockDot D A.n) S1 S2 ∧
    ∀ x, OfSize A.n x → x ≠ 0 → A.energy D act (x - S1 (levelMul act A x)) < A.energy D act x

end Amg
end Istl

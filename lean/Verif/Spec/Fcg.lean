import Verif.Spec.Gpcg

/-! # Specification: what a flexible conjugate gradient method computes -/

namespace Istl
namespace Solver
variable {K Rl X : Type} [Field K] [AddCommGroup X] [Module K X]

/-- `RestartedFCGSolver` with parameter `mmax = m`: the number of the first direction that direction `k` is made conjugate to. The directions
`0, m, 2m, …` are the first ones of a cycle; a cycle ends with the first direction of the next one. -/
def cycleStart (m k : Nat) : Nat := (k - 1) / m * m

/-- `CompleteFCGSolver`: direction `k` is made conjugate to the last `m` ones. -/
def lastStored (m k : Nat) : Nat := k - m

/-- `n` steps of a flexible conjugate gradient method for `A x = c` started at `x0`: iterates `x`, defects `b`, directions `p`. Direction `k` is
the preconditioned defect, corrected by the directions `first k, …, k - 1` so that it is conjugate to all of them; the next iterate minimises
the energy over all combinations of the directions `first k, …, k`. -/
structure FlexRun [LE K] (B : X → X → K) (W : Submodule K X) (A : Module.End K X) (prec : Nat → X → X) (first : Nat → Nat) (c x0 : X) (n : Nat)
    (x b p : Nat → X) : Prop where
  start : x 0 = x0
  defect : ∀ k ≤ n, b k = c - A (x k)
  mem : ∀ k < n, p k ∈ W
  dir : ∀ k < n, ∃ q ∈ Submodule.span K (p '' {j | first k ≤ j ∧ j < k}), p k = prec k (b k) + q
  conj : ∀ k < n, ∀ j, first k ≤ j → j < k → B (A (p j)) (p k) = 0
  step : ∀ k < n, x (k + 1) - x k ∈ Submodule.span K {p k}
  orth : ∀ k < n, ∀ j, first k ≤ j → j ≤ k → B (b (k + 1)) (p j) = 0
  minimal : ∀ k < n, ∀ z, z - x (first k) ∈ Submodule.span K (p '' {j | first k ≤ j ∧ j ≤ k}) →
    quad B A c (x (k + 1)) ≤ quad B A c z

end Solver
end Istl

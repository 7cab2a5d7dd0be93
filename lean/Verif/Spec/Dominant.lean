import Verif.Spec.Gsetc
import Verif.Spec.Solver
import Mathlib.Analysis.Seminorm

/-! # Specification: diagonal dominance, and convergence in the maximum norm -/

namespace Istl

/-- The block matrix is strictly diagonally dominant by rows with factor `q < 1`: in the norm `ν` of blocks, `size a` bounds the norm of a block
`a`, the diagonal block of row `i` enlarges each vector at least by `c i > 0`, and the blocks beside it are together at most `q (c i)` large.
For numbers: `size a = |a|`, `c i = |a_ii|`. -/
structure SpMat.Dominant {R V : Type} [AddCommGroup V] [Module ℝ V] (ν : Seminorm ℝ V) (act : R → V →+ V) (A : SpMat R) (size : R → ℝ)
    (c : Nat → ℝ) (q : ℝ) : Prop where
  nonneg : ∀ a, 0 ≤ size a
  bound : ∀ a v, ν (act a v) ≤ size a * ν v
  diag : ∀ i, i < A.n → ∀ a, (A.row i).Stores i a → ∀ v, c i * ν v ≤ ν (act a v)
  pos : ∀ i, i < A.n → 0 < c i
  row : ∀ i, i < A.n → (((A.row i).filter fun e => decide (e.1 ≠ i)).map fun e => size e.2).sum ≤ q * c i
  rate : 0 ≤ q ∧ q < 1

namespace Solver
variable {n : Nat} {V : Type} [AddCommGroup V] [Module ℝ V]

/-- `run red maxit x b` for `A x = b` converges linearly in the maximum norm of blocks, with factor `ρ < 1` per iteration for the error and a
constant `C` for the recorded defects, the same for all start vectors, right hand sides, reductions and limits; each reduction is reached
within a number of iterations that depends on nothing else. -/
structure ConvergesMax (ν : Seminorm ℝ V) (E : Env ℝ ℝ (Fin n → V)) (A : (Fin n → V) → Fin n → V)
    (run : ℝ → Nat → (Fin n → V) → (Fin n → V) → Exit (Fin n → V) ℝ) (ρ C : ℝ) : Prop where
  rate : 0 ≤ ρ ∧ ρ < 1
  normal : ∀ red maxit x b, (run red maxit x b).exc = none
  error : ∀ red maxit x b, ∃ x', (run red maxit x b).x = E.post x' ∧ ∀ z ε, A z = (E.pre x b).2 → (∀ i, ν (z i - (E.pre x b).1 i) ≤ ε) →
    ∀ i, ν (z i - x' i) ≤ ρ ^ ((run red maxit x b).it.finalize E red).iterations * ε
  defects : ∀ red maxit x b, ∀ t ∈ (run red maxit x b).it.trace, t.2 ≤ C * ρ ^ t.1 * E.norm (defect0 E x b)
  enough : ∀ red : ℝ, 0 < red → ∃ N, ∀ maxit x b, N ≤ maxit →
    ((run red maxit x b).it.finalize E red).converged = true ∧ ((run red maxit x b).it.finalize E red).iterations ≤ N

end Solver
end Istl

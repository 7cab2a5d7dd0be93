import Verif.Model.Solver
import Mathlib.LinearAlgebra.FiniteDimensional.Defs
import Mathlib.Algebra.Module.LinearMap.End

/-!
# Exact-arithmetic setting of BiCGSTAB
-/

namespace Istl
namespace Solver

variable {K Rl X : Type} [Field K] [AddCommGroup X] [Module K X]

/-- Exact arithmetic over a field: the scalar product is linear in its second argument (`φ w = (w, ·)`), `A` is the operator, every
preconditioner call is the linear map `B`; the breakdown tests recognise zero; a measured size `0` means the zero vector. -/
structure BiExact (E : Env K Rl X) (φ : X → X →ₗ[K] K) (A B : X →ₗ[K] X) : Prop where
  dot : ∀ w y, E.dot w y = φ w y
  op : ∀ x, E.op x = A x
  sub : ∀ x b, E.subOp x b = b - A x
  prec : ∀ k b, E.prec k b = B b
  above : ∀ a, E.lt E.eps (E.abs a) = true → a ≠ 0
  notBelow : ∀ a, E.lt (E.abs a) E.eps = false → a ≠ 0
  isZero : ∀ y, E.isZero (E.norm y) = true ↔ y = 0

/-- The stabilising polynomial `(1 - w_k T) ... (1 - w_1 T)`; newest factor first. -/
def stab (T : X →ₗ[K] X) : List K → X →ₗ[K] X
  | [] => LinearMap.id
  | w :: ws => (LinearMap.id - w • T) ∘ₗ stab T ws

/-- `s` is the state of BiCGSTAB after `k` complete passes from `s0`, none of which starts from a zero residual; `ws` are the relaxation
parameters `omega` of these passes, newest first. -/
inductive BiReach [Mul Rl] [Zero Rl] (E : Env K Rl X) (s0 : BiSt K X Rl) : Nat → BiSt K X Rl → List K → Prop where
  | start : BiReach E s0 0 s0 []
  | pass {k : Nat} {s s' : BiSt K X Rl} {ws : List K} {rho : K} : BiReach E s0 k s ws → E.isZero s.norm = false →
      biFirst E k s = some (s', rho) → BiReach E s0 (k + 1) (biSecond E k s' rho) ((biSecond E k s' rho).omega :: ws)

/-- The state before the first pass, for the residual `r`. -/
def biStart (x r : X) (d : Rl) : BiSt K X Rl :=
  { x := x, r := r, p := 0, v := 0, rt := r, rho := 1, alpha := 1, omega := 1, norm := d }

/-- `R` is the residual of the biconjugate gradient method after `k` steps for the operator `T`, the start residual `r` and the shadow
functional `f`: it lies in `r + span {T r, ..., T^k r}` and `f` annihilates `R, T R, ..., T^(k-1) R`. -/
structure IsBicgResidual (T : X →ₗ[K] X) (r : X) (f : X →ₗ[K] K) (k : Nat) (R : X) : Prop where
  search : R - r ∈ Submodule.span K {y | ∃ j, j < k ∧ y = (T ^ (j + 1)) r}
  orth : ∀ j, j < k → f ((T ^ j) R) = 0

end Solver
end Istl

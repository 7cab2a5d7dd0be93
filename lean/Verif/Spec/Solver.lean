import Verif.Model.Krylov

/-!
# What the statistics of an iterative solver must say
-/

namespace Istl
namespace Solver

variable {K Rl X : Type}

/-- `d` counts as converged with respect to the initial defect `d0`: below `red * d0` or below `1e-30`. -/
def Reached [Mul Rl] (E : Env K Rl X) (red d0 d : Rl) : Prop := E.lt d (d0 * red) = true ∨ E.lt d E.tiny = true

/-- The run recorded the defects `d0, ..., dn` of the steps `0, ..., n`, all finite, and the reported statistics are those of this
record: `n` iterations, reduction `dn / d0`, converged exactly if `dn` counts as converged. -/
structure Truthful [Mul Rl] [Div Rl] (E : Env K Rl X) (red : Rl) (e : Exit X Rl) (d0 dn : Rl) : Prop where
  numbers : e.it.trace.map Prod.fst = List.range ((e.it.finalize E red).iterations + 1)
  first : e.it.trace.head? = some (0, d0)
  last : e.it.trace.getLast? = some ((e.it.finalize E red).iterations, dn)
  finite : ∀ t ∈ e.it.trace, E.finite t.2 = true
  converged : (e.it.finalize E red).converged = true ↔ Reached E red d0 dn
  reduction : (e.it.finalize E red).reduction = dn / d0

/-- The initial defect vector `b0 - A x0`, as computed after the preconditioner's `pre`. -/
def defect0 (E : Env K Rl X) (x b : X) : X := E.subOp (E.pre x b).1 (E.pre x b).2

end Solver
end Istl

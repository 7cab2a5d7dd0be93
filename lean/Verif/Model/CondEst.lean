import Verif.Model.Solver
import Verif.Model.Arpack

/-!
# The condition estimate of `CGSolver`

dune/istl/solvers.hh:296-298, 314-318, 330-334, 341-394, with ARPACK++ present, field type `double` (numbers are reals) and
`condition_estimate == true`. Not modelled: output.
-/

namespace Istl
namespace Solver
open Arpack
variable {Rl X : Type}

/-- `T[row][row-1]`, if there is one. dune/istl/solvers.hh:360-362. -/
noncomputable def estLower (lambdas betas : List ℝ) (row : Nat) : Res (Row Blk) :=
  if 0 < row then do
    let b ← rd betas (row - 1)
    let l ← rd lambdas (row - 1)
    .ok [(row - 1, fun _ _ => Real.sqrt b / l)]
  else .ok []

/-- `T[row][row]`. dune/istl/solvers.hh:364-367. -/
noncomputable def estDiag (lambdas betas : List ℝ) (row : Nat) : Res (Row Blk) := do
  let l ← rd lambdas row
  if 0 < row then do
    let b ← rd betas (row - 1)
    let l' ← rd lambdas (row - 1)
    .ok [(row, fun _ _ => 1 / l + b / l')]
  else .ok [(row, fun _ _ => 1 / l)]

/-- `T[row][row+1]`, if there is one. dune/istl/solvers.hh:369-371. -/
noncomputable def estUpper (lambdas betas : List ℝ) (i row : Nat) : Res (Row Blk) :=
  if row + 1 < i then do
    let b ← rd betas row
    let l ← rd lambdas row
    .ok [(row + 1, fun _ _ => Real.sqrt b / l)]
  else .ok []

/-- The matrix `T(i,i,row_wise)`: in every row the entries left of, on and right of the diagonal, as far as they exist.
dune/istl/solvers.hh:350-372. -/
noncomputable def estMatrix (lambdas betas : List ℝ) (i : Nat) : Res (SpMat Blk) := do
  let rows ← forRangeM i (fun row (rows : Nat → Row Blk) => do
    let a ← estLower lambdas betas row
    let b ← estDiag lambdas betas row
    let c ← estUpper lambdas betas i row
    .ok (upd rows row (a ++ b ++ c))) (fun _ => [])
  .ok ⟨i, i, rows⟩

/-- The estimate; `eigv` starts as a vector of size zero. dune/istl/solvers.hh:341-383. -/
noncomputable def condEstimate (ar : Eig) (lambdas betas : List ℝ) (i : Nat) : Res ℝ := do
  let T ← estMatrix lambdas betas i
  let lo ← computeSym ar .SM 1 1 T ⟨0, fun _ _ => 0⟩
  let hi ← computeSym ar .LM 1 1 T lo.2
  .ok (hi.1 / lo.1)

/-- The loop of `CGSolver::apply` with all of its state; `none`: it is not reached. dune/istl/solvers.hh:279-337. -/
noncomputable def cgLoop [Add X] [SMul ℝ X] [Mul Rl] [Zero Rl] (E : Env ℝ Rl X) (red : Rl) (maxit : Nat) (x b : X) :
    Option (CgSt ℝ X Rl × It Rl × Option Exc) :=
  let p := E.pre x b
  let b := E.subOp p.1 p.2
  let d := E.norm b
  match It.start.step E red 0 d with
  | none => none
  | some it => if it.converged then none else some (forIt E red (cgAdvance E) (fun s => s.d) (cgAfter E) maxit 1 (cgInit E p.1 b d) it)

/-- The loop variable `i` behind the loop: `break` leaves it, the end of the loop has counted on. dune/istl/solvers.hh:305-306, 322-323. -/
def cgEnd (maxit : Nat) (it : It Rl) : Nat := if it.converged then it.i else maxit + 1

/-- What `apply` stores as `res.condition_estimate`: `none` if nothing (return before the loop, exception). dune/istl/solvers.hh:279-394. -/
noncomputable def cgEstimate [Add X] [SMul ℝ X] [Mul Rl] [Zero Rl] (ar : Eig) (E : Env ℝ Rl X) (red : Rl) (maxit : Nat) (x b : X) :
    Option (Res ℝ) :=
  match cgLoop E red maxit x b with
  | none => none
  | some (_, _, some _) => none
  | some (s, it, none) => some (condEstimate ar s.lambdas s.betas (cgEnd maxit it))

end Solver
end Istl

import Verif.Model.FastAmg
import Verif.Spec.Gsetc
import Verif.Spec.AmgCycle

/-! Specification for FastAMG: block symmetry, zero-extended vectors. -/

namespace Istl
variable {B X K : Type} [AddCommGroup X] [SMul K X]

/-- `a_ij v`: the stored block applied to `v`, zero outside the pattern. -/
def SpMat.blockAct (act : B → X →+ X) (A : SpMat B) (i j : Nat) (v : X) : X := A.partSum act (fun k => k = j) (fun _ => v) i

/-- `a_ij = a_ji` (as operators on blocks) for all `i ≠ j`: a symmetric matrix all of whose off-diagonal blocks are symmetric. -/
def SpMat.BlockSymmetric (act : B → X →+ X) (A : SpMat B) : Prop :=
  ∀ i j, i < A.n → j < A.n → i ≠ j → ∀ v, A.blockAct act i j v = A.blockAct act j i v

/-- The column indices are below the number of rows. -/
def SpMat.Square (A : SpMat B) : Prop := ∀ i, i < A.n → ∀ e ∈ A.row i, e.1 < A.n

/-- A vector with `n` blocks (a function that vanishes from `n` on). -/
def Supp (n : Nat) (x : Nat → X) : Prop := ∀ i, n ≤ i → x i = 0

end Istl

namespace Istl
namespace FastAmg
open Gsetc
variable {B X K : Type} [AddCommGroup X] [Ring K] [Module K X]

/-- The vector a sweep returns. -/
def result (r : Res (Nat → X)) : Nat → X := match r with
  | .ok x => x
  | _ => 0

/-- The textbook V-cycle `FastAMG` should compute, as a `Amg.Setup` (C46): one forward Gauss-Seidel step before and one backward
Gauss-Seidel step after the coarse correction, one recursive call. -/
def vCycle (β : BlockSolve B X X) (S : Setup B X K) : Amg.Setup K (Nat → X) where
  coarsest := S.coarsest
  mat l x := fun i => if i < (S.mat l).n then (S.mat l).apply β.act x i else 0
  pre l v d := result (bsorf β.act (solveLoc β) (1 : K) (S.mat l) d v)
  post l v d := result (bsorb β.act (solveLoc β) (1 : K) (S.mat l) d v)
  restr := S.restr
  prol := S.prol
  solve := S.solve
  damp := S.damp
  preSteps := 1
  postSteps := 1
  gamma := 1

/-- The hierarchies `FastAMG` is made for: sorted rows, stored and invertible diagonal blocks, `a_ij = a_ji`; the transfer operators
map vectors of one level to vectors of the next. -/
structure Setup.Good (β : BlockSolve B X X) (S : Setup B X K) : Prop where
  sorted : ∀ l, l < S.coarsest → (S.mat l).Sorted
  diag : ∀ l, l < S.coarsest → (S.mat l).HasDiag
  square : ∀ l, l < S.coarsest → (S.mat l).Square
  inv : ∀ l, l < S.coarsest → (S.mat l).DiagInvertible β.act
  symm : ∀ l, l < S.coarsest → (S.mat l).BlockSymmetric β.act
  restr : ∀ l, l < S.coarsest → ∀ x, Supp (S.mat (l + 1)).n (S.restr l x)
  prol : ∀ l, l < S.coarsest → ∀ x, Supp (S.mat l).n (S.prol l x)

/-- A direct coarse solver: the result does not depend on the start vector and the right hand side is left alone. -/
def Setup.Direct (S : Setup B X K) : Prop := ∀ x b, S.solve x b = ((S.solve 0 b).1, b, (S.solve 0 b).2.2)

/-- The coarse solver always reports convergence. -/
def Setup.Converges (S : Setup B X K) : Prop := ∀ x b, (S.solve x b).2.2 = true

end FastAmg
end Istl

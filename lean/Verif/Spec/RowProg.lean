import Verif.Model.RowProg
import Verif.Spec.RowStmt
import Mathlib.Algebra.BigOperators.Group.List.Basic

/-! # What programs with statements on rows mean for independent values -/

namespace Istl
namespace RowStmt
open Bcrs BcrsWorld
variable {B : Type}

/-- Row `r` of variable `x`. -/
def rowOf (s : State B) (x r : Nat) : Option (Row B) := (s.get x).bind fun v => v.rows[r]?

/-- Row `r` of variable `x` changed by `g`. -/
def inRow (s : State B) (x r : Nat) (g : Row B → Row B) : State B := s.upd x fun v => { v with rows := v.rows.modify r g }

/-- The entries of `src` before the first one whose column `row` does not have. -/
def common (src row : Row B) : Row B := src.takeWhile fun e => decide (e.1 ∈ columns row)

/-- When a statement is allowed: `+=` needs the columns of the right row in the left row; `=` needs the same columns. -/
def Allowed (S : State B) : Stmt B → Prop
  | .whole op => Valid S op
  | .map _ x r => ∃ row, rowOf S x r = some row
  | .combine _ x r y s => ∃ row src, rowOf S x r = some row ∧ rowOf S y s = some src ∧ ∀ c ∈ columns src, c ∈ columns row
  | .tryCombine _ x r y s => ∃ row src, rowOf S x r = some row ∧ rowOf S y s = some src
  | .copy x r y s => ∃ row src, rowOf S x r = some row ∧ rowOf S y s = some src ∧ columns src = columns row

/-- What a statement means. -/
def applyStmt (z : B) (S : State B) : Stmt B → State B
  | .whole op => BcrsWorld.apply z S op
  | .map f x r => inRow S x r (mapVals f)
  | .combine f x r y s => inRow S x r (combined f ((rowOf S y s).getD []))
  | .tryCombine f x r y s => inRow S x r fun row => combined f (common ((rowOf S y s).getD []) row) row
  | .copy x r y s => inRow S x r fun _ => (rowOf S y s).getD []

/-- Every statement is allowed when its turn comes. -/
def AllAllowed (z : B) : State B → List (Stmt B) → Prop
  | _, [] => True
  | S, st :: rest => Allowed S st ∧ AllAllowed z (applyStmt z S st) rest

/-- The values after a program. -/
def runStmts (z : B) (S : State B) (prog : List (Stmt B)) : State B := prog.foldl (applyStmt z) S

/-- Scalar product of two rows: over the columns of the left one. -/
def dotOf {F : Type} [AddMonoid F] (mul : B → B → F) (row src : Row B) : F :=
  ((columns row).map fun c => match valueAt row c, valueAt src c with
    | some a, some b => mul a b
    | _, _ => 0).sum

end RowStmt
end Istl

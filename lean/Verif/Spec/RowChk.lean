import Verif.Model.RowChk
import Verif.Spec.RowProg

/-! # What checked statements on rows and entries mean for independent values -/

namespace Istl
namespace RowStmt
open Bcrs BcrsWorld
variable {B : Type}

/-- The exception a statement ends with: a row that does not exist, an entry that is not in the pattern, columns or sizes that do not fit. -/
def outcome (S : State B) : CStmt B → Option Exc
  | .whole _ => none
  | .entry _ x r c => match rowOf S x r with
    | none => some .bcrsMatrixError
    | some row => if c ∈ columns row then none else some .istlError
  | .map _ x r => match rowOf S x r with
    | none => some .bcrsMatrixError
    | some _ => none
  | .combine _ x r y s => match rowOf S x r, rowOf S y s with
    | some row, some src => if ∀ c ∈ columns src, c ∈ columns row then none else some .istlError
    | _, _ => some .bcrsMatrixError
  | .copy x r y s => match rowOf S x r, rowOf S y s with
    | some row, some src => if row.length = src.length then none else some .istlError
    | _, _ => some .bcrsMatrixError

/-- What a statement that does not throw means. -/
def meaning (z : B) (S : State B) : CStmt B → State B
  | .whole op => BcrsWorld.apply z S op
  | .entry f x r c => inRow S x r (mapAt c f)
  | .map f x r => inRow S x r (mapVals f)
  | .combine f x r y s => inRow S x r (combined f ((rowOf S y s).getD []))
  | .copy x r y s => inRow S x r fun _ => (rowOf S y s).getD []

/-- A statement that throws changes nothing. -/
def applyChk (z : B) (S : State B) (st : CStmt B) : State B :=
  match outcome S st with
  | none => meaning z S st
  | some _ => S

/-- The variable exists. -/
def Alive (S : State B) (x : Nat) : Prop := ∃ v, S.get x = some v

/-- Variables exist; nothing is asked of row and column numbers. Rows of the same size that are assigned have the same columns. -/
def AllowedChk (S : State B) : CStmt B → Prop
  | .whole op => Valid S op
  | .entry _ x _ _ => Alive S x
  | .map _ x _ => Alive S x
  | .combine _ x _ y _ => Alive S x ∧ Alive S y
  | .copy x r y s => Alive S x ∧ Alive S y ∧ ∀ row src, rowOf S x r = some row → rowOf S y s = some src → row.length = src.length →
      columns src = columns row

/-- Every statement is allowed when its turn comes. -/
def AllAllowedChk (z : B) : State B → List (CStmt B) → Prop
  | _, [] => True
  | S, st :: rest => AllowedChk S st ∧ AllAllowedChk z (applyChk z S st) rest

/-- The values after a program. -/
def endState (z : B) (S : State B) (prog : List (CStmt B)) : State B := prog.foldl (applyChk z) S

/-- The exceptions of a program. -/
def outcomes (z : B) : State B → List (CStmt B) → List (Option Exc)
  | _, [] => []
  | S, st :: rest => outcome S st :: outcomes z (applyChk z S st) rest

end RowStmt
end Istl

import Verif.Model.Row
import Mathlib.Algebra.BigOperators.Group.Finset.Basic

/-!
# Specification vocabulary for sparse rows and matrices
Independent of how look-ups and loops are implemented.
-/

namespace Istl

/-- Column indices strictly ascending: the state every build mode leaves a row in. -/
def Row.Asc {B : Type} (r : Row B) : Prop := (r.map Prod.fst).Pairwise (· < ·)

/-- The row stores value `b` for column `j`. -/
def Row.Stores {B : Type} (r : Row B) (j : Nat) (b : B) : Prop := (j, b) ∈ r

/-- Column `j` belongs to the sparsity pattern of the row. -/
def Row.Has {B : Type} (r : Row B) (j : Nat) : Prop := ∃ b, (j, b) ∈ r

/-- Mathematical value of the row at column `j`: the stored value, or zero outside the pattern. -/
def Row.val {B : Type} [Zero B] (r : Row B) (j : Nat) : B :=
  match r.find? (fun e => e.1 == j) with
  | some e => e.2
  | none => 0

end Istl

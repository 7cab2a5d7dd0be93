import Verif.Model.RowStmt
import Verif.Spec.BcrsValues

/-! # What statements on rows should do to the values -/

namespace Istl
namespace RowStmt
open Bcrs BcrsWorld
variable {B : Type}

/-- The value a row has in column `c`. -/
def valueAt (row : Row B) (c : Nat) : Option B := (row.find? fun e => e.1 = c).map Prod.snd

/-- Every entry for which `src` has one in the same column becomes `f old new`. -/
def combined (f : B → B → B) (src row : Row B) : Row B :=
  row.map fun e => match valueAt src e.1 with
    | some b => (e.1, f e.2 b)
    | none => e

/-- The stored columns. -/
def columns (row : Row B) : List Nat := row.map Prod.fst

end RowStmt
end Istl

import Verif.Model.CcsMem

/-! # Independent values: what programs over `BCCSMatrix` objects should compute -/

namespace Istl
namespace CcsMem
variable {α : Type}

/-- A matrix value; `pristine` records that the variable never held any storage. -/
structure Val (α : Type) where
  N : Nat
  M : Nat
  vals : List α
  rows : List α
  cols : List α
  pristine : Bool

/-- the empty matrix -/
def Val.empty (p : Bool) : Val α := ⟨0, 0, [], [], [], p⟩

/-- Nothing to store at all. -/
def Val.Zero (v : Val α) : Prop := v.N = 0 ∧ v.M = 0 ∧ v.vals = []

/-- Both the column array and the entry arrays are non-empty. -/
def Val.Full (v : Val α) : Prop := 0 < v.M ∧ v.vals ≠ []

/-- The program state: the value of every variable, `none` once destroyed. -/
abbrev State (α : Type) := List (Option (Val α))

/-- A statement is allowed: its matrices exist, arrays have matching sizes, and an assignment is between two different
matrices where the source has columns and entries, or is the empty matrix, or the target never held storage. -/
def Valid (s : State α) : Op α → Prop
  | .new => True
  | .build i _ M vals rows cols => (∃ v, s[i]? = some (some v)) ∧ rows.length = vals.length ∧ cols.length = M + 1
  | .assign i j => i ≠ j ∧ ∃ u v, s[i]? = some (some u) ∧ s[j]? = some (some v) ∧
      (v.Full ∨ v.Zero ∨ u.pristine = true)
  | .setValue i k _ => ∃ v, s[i]? = some (some v) ∧ k < v.vals.length
  | .free i => ∃ v, s[i]? = some (some v)
  | .destroy i => ∃ v, s[i]? = some (some v)

/-- What the statement means for independent values. -/
def apply (s : State α) : Op α → State α
  | .new => s ++ [some (Val.empty true)]
  | .build i N M vals rows cols => s.set i (some ⟨N, M, vals, rows, if M = 0 then [] else cols, false⟩)
  | .assign i j =>
    match s[j]? with
    | some (some v) => s.set i (some { v with pristine := false })
    | _ => s
  | .setValue i k x =>
    match s[i]? with
    | some (some v) => s.set i (some { v with vals := v.vals.set k x })
    | _ => s
  | .free i => s.set i (some (Val.empty false))
  | .destroy i => s.set i none

/-- Every statement of the program is allowed when its turn comes. -/
def AllValid : State α → List (Op α) → Prop
  | _, [] => True
  | s, op :: ops => Valid s op ∧ AllValid (apply s op) ops

/-- The values after a program. -/
def run (s : State α) (ops : List (Op α)) : State α := ops.foldl apply s

end CcsMem
end Istl

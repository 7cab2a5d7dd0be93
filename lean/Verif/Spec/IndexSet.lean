import Verif.Model.IndexSet

/-!
# What a `MatrixIndexSet` means
A number of rows and columns and one set of column indices per row; no storage, no representation switch.
-/

namespace Istl
namespace IndexSet

/-- A history of a `MatrixIndexSet`. -/
inductive Op (α : Type) where
  | resize (rows cols : Nat)
  | add (row col : Nat)
  | imp (A : SpMat α) (rowOffset colOffset : Nat)

/-- rows, columns and the collected set of each row -/
structure Pattern where
  rows : Nat
  cols : Nat
  S : Nat → Finset Nat

/-- A new index set is empty. -/
def Pattern.empty (rows cols : Nat) : Pattern := ⟨rows, cols, fun _ => ∅⟩

variable {α : Type}

/-- The call mentions only existing rows. -/
def Op.Valid (p : Pattern) : Op α → Prop
  | .resize _ _ => True
  | .add i _ => i < p.rows
  | .imp A ro _ => ∀ i, i < A.n → A.row i ≠ [] → i + ro < p.rows

/-- The effect of a call: `resize` forgets the rows that disappear, `add` inserts one column, `import` inserts the shifted pattern of `A`. -/
def Op.apply (p : Pattern) : Op α → Pattern
  | .resize r c => ⟨r, c, fun i => if i < r then p.S i else ∅⟩
  | .add i j => { p with S := fun k => if k = i then insert j (p.S k) else p.S k }
  | .imp A ro co => { p with S := fun k => if ro ≤ k ∧ k < A.n + ro then p.S k ∪ ((A.row (k - ro)).map fun e => e.1 + co).toFinset else p.S k }

/-- The pattern after a history. -/
def after (p : Pattern) (ops : List (Op α)) : Pattern := ops.foldl Op.apply p

/-- Every call of the history mentions only rows existing at that time. -/
def AllValid : Pattern → List (Op α) → Prop
  | _, [] => True
  | p, op :: ops => op.Valid p ∧ AllValid (op.apply p) ops

/-- The program that makes the calls. -/
def Op.run (X : Obj) : Op α → Res Obj
  | .resize r c => .ok (X.resize r c)
  | .add i j => X.add i j
  | .imp A ro co => X.import A ro co

/-- The program that makes all calls. -/
def runAll (X : Obj) (ops : List (Op α)) : Res Obj := ops.foldlM Op.run X

end IndexSet
end Istl

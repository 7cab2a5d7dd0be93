import Verif.Model.BcrsWorld
import Verif.Spec.Row

/-! # Independent values: what programs over `BCRSMatrix` variables should compute -/

namespace Istl
namespace BcrsWorld
open Bcrs
variable {B : Type}

/-- A matrix value. `lazy` records that it was built row by row without announcing the number of entries, `counted` that
`nonzeroes()` was called on it or that it was copied (which does that). -/
structure Val (B : Type) where
  n : Nat
  m : Nat
  rows : List (Row B)
  lazy : Bool
  counted : Bool

/-- The program state: the value of every variable, `none` once destroyed. -/
abbrev State (B : Type) := List (Option (Val B))

/-- the value of a live variable -/
def State.get (s : State B) (i : Nat) : Option (Val B) := (s[i]?).join

/-- All values changed by `f`. -/
def mapVals (f : B → B) (r : Row B) : Row B := r.map fun e => (e.1, f e.2)

/-- The value in column `c` changed by `f`. -/
def mapAt (c : Nat) (f : B → B) (r : Row B) : Row B := r.map fun e => if e.1 = c then (e.1, f e.2) else e

/-- A statement is allowed. For the building statements: the rows exist and there is room (C02, C04, C06); in random mode
every announced place is used. `A *= k` must not be applied to a matrix with entries that was built row by row without
announcing the number of entries and then had `nonzeroes()` called on it or was copied. -/
def Valid (s : State B) : Op B → Prop
  | .new _ => True
  | .random n m nnz sizes calls => (∀ op ∈ sizes, op.row < n) ∧ (∀ c ∈ calls, c.1 < n) ∧
      (nnz = 0 ∨ ∑ i ∈ Finset.range n, announced sizes i ≤ nnz) ∧
      ∀ i, i < n → (collected m (announced sizes) calls i).card = announced sizes i
  | .rowWise n _ nnz bm todo => (bm = .rowWise ∨ bm = .unknown) ∧ todo.length = n ∧
      (nnz = 0 ∨ 0 < n ∧ (todo.map fun cols => cols.toFinset.card).sum ≤ nnz)
  | .implicit n _ avg cbs acc => 0 < avg ∧ 0 ≤ cbs ∧ (∀ a ∈ acc, a.row < n) ∧ RoomAtEveryRow n avg cbs acc
  | .copy j => ∃ v, s.get j = some v
  | .assign i j => (∃ u, s.get i = some u) ∧ ∃ v, s.get j = some v
  | .modify i r c _ => ∃ v, s.get i = some v ∧ ∃ row : Row B, v.rows[r]? = some row ∧ row.Has c
  | .scale i _ => ∃ v, s.get i = some v ∧ (v.lazy = true → v.counted = true → ∀ r ∈ v.rows, r = [])
  | .fill i _ => ∃ v, s.get i = some v
  | .count i => ∃ v, s.get i = some v
  | .destroy i => ∃ v, s.get i = some v

/-- Change the value of variable `i`. -/
def State.upd (s : State B) (i : Nat) (f : Val B → Val B) : State B := s.modify i (Option.map f)

/-- What the statement means for independent values; `z` is the value of fresh blocks. -/
def apply (z : B) (s : State B) : Op B → State B
  | .new _ => s ++ [some ⟨0, 0, [], false, false⟩]
  | .random n m _ sizes calls => s ++ [some ⟨n, m,
      (List.range n).map fun i => (collected m (announced sizes) calls i).sort.map fun j => (j, z), false, false⟩]
  | .rowWise n m nnz _ todo => s ++ [some ⟨n, m,
      todo.map fun cols => cols.toFinset.sort.map fun j => (j, z), decide (nnz = 0), false⟩]
  | .implicit n m _ _ acc => s ++ [some ⟨n, m,
      (List.range n).map fun i => (accCols acc i).sort.map fun j => (j, accVal acc i j z), false, false⟩]
  | .copy j =>
    let s' := s.upd j fun v => { v with counted := true }
    s' ++ [(s.get j).map fun v => { v with lazy := false, counted := true }]
  | .assign i j =>
    if i = j then s
    else match s.get j with
      | some v => (s.upd j fun v => { v with counted := true }).upd i fun _ => { v with lazy := false, counted := true }
      | none => s
  | .modify i r c f => s.upd i fun v => { v with rows := v.rows.modify r (mapAt c f) }
  | .scale i f => s.upd i fun v => { v with rows := v.rows.map (mapVals f) }
  | .fill i k => s.upd i fun v => { v with rows := v.rows.map (mapVals fun _ => k) }
  | .count i => s.upd i fun v => { v with counted := true }
  | .destroy i => s.set i none

/-- Every statement of the program is allowed when its turn comes. -/
def AllValid (z : B) : State B → List (Op B) → Prop
  | _, [] => True
  | s, op :: ops => Valid s op ∧ AllValid z (apply z s op) ops

/-- The values after a program. -/
def run (z : B) (s : State B) (ops : List (Op B)) : State B := ops.foldl (apply z) s

end BcrsWorld
end Istl

import Verif.Model.DenseIter
import Verif.Spec.Dense

/-! # What loops over the rows of a dense matrix should do -/

namespace Istl
namespace DenseIter
open Iter (Dir)
variable {B τ : Type}

/-- One entry is visited. -/
def visit (f : Nat → Nat → B → τ → B × τ) (x : (Nat → Nat → B) × τ) (ij : Nat × Nat) : (Nat → Nat → B) × τ :=
  (fun i j => if i = ij.1 ∧ j = ij.2 then (f ij.1 ij.2 (x.1 ij.1 ij.2) x.2).1 else x.1 i j, (f ij.1 ij.2 (x.1 ij.1 ij.2) x.2).2)

/-- The rows of a loop. -/
def rowOrder (n : Nat) : Dir → List Nat
  | .up => List.range n
  | .down => (List.range n).reverse

/-- The entries of a loop: row by row. -/
def places (n m : Nat) (d : Dir) : List (Nat × Nat) := (rowOrder n d).flatMap fun i => (List.range m).map fun j => (i, j)

end DenseIter
end Istl

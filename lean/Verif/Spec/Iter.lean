import Verif.Model.Iter
import Verif.Spec.BcrsValues

/-! # What loops over rows and entries should do -/

namespace Istl
namespace Iter
open Bcrs BcrsWorld
variable {B τ : Type}

/-- A list in the order of the loop. -/
def Dir.order {α : Type} : Dir → List α → List α
  | .up, l => l
  | .down, l => l.reverse

/-- All stored entries as (row, column, value): rows in the order `dr`, in each row the entries in the order `dc`. -/
def visits (dr dc : Dir) (rows : List (Row B)) : List (Nat × Nat × B) :=
  (dr.order rows.zipIdx).flatMap fun (row, i) => (dc.order row).map fun (c, b) => (i, c, b)

/-- Calling `f` once for each element of the list: the assignments `A_x[i][c] = y` it asks for, and the final state. -/
def walk (x : Nat) (f : Nat → Nat → B → τ → Option B × τ) : List (Nat × Nat × B) → τ → List (Op B) × τ
  | [], s => ([], s)
  | (i, c, b) :: l, s =>
    match f i c b s with
    | (none, s1) => walk x f l s1
    | (some y, s1) => (.modify x i c (fun _ => y) :: (walk x f l s1).1, (walk x f l s1).2)

/-- The sizes of the matrix fit into `size_type`. -/
def Fits (W : Nat) (v : Val B) : Prop := v.n < W ∧ ∀ r ∈ v.rows, r.length < W

/-- The row iterator at position `q`; the positions from `-1` (`beforeBegin`) to `N` (`end`) and all others modulo `W`. -/
def rowAt (W : Nat) (o : Obj B) (q : Int) : RowIt := ⟨o.rows, (q % (W : Int)).toNat⟩

/-- The rows after every entry `b` in row `i` and column `c` was replaced by `g i c b`. -/
def mapEntries (g : Nat → Nat → B → B) (rows : List (Row B)) : List (Row B) :=
  rows.mapIdx fun i row => row.map fun (c, b) => (c, g i c b)

end Iter
end Istl

import Verif.Model.MatrixDim
import Mathlib.Algebra.BigOperators.Intervals

/-! # Specification: the flat matrix behind a nested one -/

namespace Istl
namespace MatDim
open Finset
variable {S : Type}

/-- What the matrix type says about block heights `h` and widths `w`. A general `BCRSMatrix` only knows the sizes of stored blocks;
block rows and columns without a stored block have no extent. -/
def KindOk (n m : Nat) (pat : Nat → List Nat) (h w : Nat → Nat) : Kind → Prop
  | .flat => (∀ i, i < n → h i = 1) ∧ ∀ j, j < m → w j = 1
  | .bcrs => (∀ i, i < n → pat i = [] → h i = 0) ∧ ∀ j, j < m → (∀ i, i < n → j ∉ pat i) → w j = 0
  | .bcrsField br bc => (∀ i, i < n → h i = br) ∧ ∀ j, j < m → w j = bc
  | .dense => 0 < n ∧ 0 < m ∧ ∀ i, i < n → pat i = List.range m
  | .denseField br bc => (∀ i, i < n → h i = br) ∧ ∀ j, j < m → w j = bc

/-- `Layout A R C P`: the blocks of `A` are aligned (heights agree along block rows, widths along block columns), the flat matrix
has `R` rows and `C` columns, and `P r c s` holds exactly when it stores the number `s` at row `r`, column `c`. -/
inductive Layout : MMat S → Nat → Nat → (Nat → Nat → S → Prop) → Prop
  | scalar (s : S) : Layout (.scalar s) 1 1 fun r c x => r = 0 ∧ c = 0 ∧ x = s
  | node (k : Kind) (n m : Nat) (pat : Nat → List Nat) (entry : Nat → Nat → MMat S) (h w : Nat → Nat)
      (Q : Nat → Nat → Nat → Nat → S → Prop) (hpat : ∀ i, i < n → (pat i).Nodup ∧ ∀ j ∈ pat i, j < m)
      (hk : KindOk n m pat h w k) (hblk : ∀ i j, i < n → j ∈ pat i → Layout (entry i j) (h i) (w j) (Q i j)) :
      Layout (.node k n m pat entry) (∑ i ∈ range n, h i) (∑ j ∈ range m, w j) fun r c x =>
        ∃ i j r' c', i < n ∧ j ∈ pat i ∧ Q i j r' c' x ∧ r = ∑ a ∈ range i, h a + r' ∧ c = ∑ a ∈ range j, w a + c'

/-- In every general `BCRSMatrix` inside `A` every block column has a stored block. -/
def FullCols : MMat S → Prop
  | .scalar _ => True
  | .node .bcrs n m pat entry => (∀ j, j < m → ∃ i, i < n ∧ j ∈ pat i) ∧ ∀ i j, i < n → j ∈ pat i → FullCols (entry i j)
  | .node .flat n _ pat entry => ∀ i j, i < n → j ∈ pat i → FullCols (entry i j)
  | .node (.bcrsField _ _) n _ pat entry => ∀ i j, i < n → j ∈ pat i → FullCols (entry i j)
  | .node .dense n _ pat entry => ∀ i j, i < n → j ∈ pat i → FullCols (entry i j)
  | .node (.denseField _ _) n _ pat entry => ∀ i j, i < n → j ∈ pat i → FullCols (entry i j)

/-- The same for the blocks of `A` only. -/
def BlocksFull : MMat S → Prop
  | .scalar _ => True
  | .node _ n _ pat entry => ∀ i j, i < n → j ∈ pat i → FullCols (entry i j)

/-- Every matrix inside `A` has a block column. -/
def HasCols : MMat S → Prop
  | .scalar _ => True
  | .node _ n m pat entry => 0 < m ∧ ∀ i j, i < n → j ∈ pat i → HasCols (entry i j)

end MatDim
end Istl

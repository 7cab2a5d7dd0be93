import Verif.Model.Ccs
import Verif.Spec.SpMat

/-! # What a compressed column matrix stands for -/

namespace Istl
namespace Ccs
variable {B K : Type}

/-- The arrays describe exactly the scalar entries `(r,c,v)` with `P r c v`, in `cols` columns: the column starts go from 0
to `Nnz_` and never decrease, `rowindex` and `values` have `Nnz_` elements, in every column the row indices ascend strictly
(so no position is stored twice), and the pairs found between two column starts are exactly the entries of that column. -/
def Mat.Represents (X : Mat K) (cols : Nat) (P : Nat → Nat → K → Prop) : Prop :=
  X.colstart.length = cols + 1 ∧ X.rowindex.length = X.nnz ∧ X.values.length = X.nnz ∧
  rd X.colstart 0 = .ok 0 ∧ rd X.colstart cols = .ok X.nnz ∧
  ∀ c, c < cols → ∃ a b, rd X.colstart c = .ok a ∧ rd X.colstart (c + 1) = .ok b ∧ a ≤ b ∧
    (∀ k l r r', a ≤ k → k < l → l < b → rd X.rowindex k = .ok r → rd X.rowindex l = .ok r' → r < r') ∧
    ∀ r v, (∃ k, a ≤ k ∧ k < b ∧ rd X.rowindex k = .ok r ∧ rd X.values k = .ok v) ↔ P r c v

/-- The scalar entries of a block matrix with `n x m` blocks: entry `(R*n+i, C*m+j)` is `ent b i j` for a stored block `b` at
`(R,C)`. -/
def scalarEntries (A : SpMat B) (ent : B → Nat → Nat → K) (n m : Nat) (r c : Nat) (v : K) : Prop :=
  ∃ R C b i j, R < A.n ∧ (A.row R).Stores C b ∧ i < n ∧ j < m ∧ r = R * n + i ∧ c = C * m + j ∧ v = ent b i j

/-- The scalar entries of the sub-matrix on the ordered index set `S`: block `(R,C)` of it is block `(S[R],S[C])` of `A`. -/
def subEntries (A : SpMat B) (ent : B → Nat → Nat → K) (n m : Nat) (S : List Nat) (r c : Nat) (v : K) : Prop :=
  ∃ R C t u b i j, S[R]? = some t ∧ S[C]? = some u ∧ (A.row t).Stores u b ∧ i < n ∧ j < m ∧ r = R * n + i ∧
    c = C * m + j ∧ v = ent b i j

end Ccs
end Istl

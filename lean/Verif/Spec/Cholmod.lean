import Verif.Spec.ForEach
import Verif.Spec.Ccs
import Verif.Model.Cholmod

/-! # Specification: the linear system behind the wrapper of the Cholesky solver -/

namespace Istl
namespace Cholmod
open ForEach Finset

variable {K : Type}

/-- Degree of freedom `r` of `n` takes part: it is not marked in the ignore field. -/
def Keeps (ign : Option (NVec Bool)) (n r : Nat) : Prop :=
  match ign with
  | none => r < n
  | some v => r < n ∧ v.leaves[r]? = some false

instance (ign : Option (NVec Bool)) (n r : Nat) : Decidable (Keeps ign n r) := by
  unfold Keeps; split <;> infer_instance

/-- The number of degrees of freedom before `r` that take part. -/
def newIndex (ign : Option (NVec Bool)) (n r : Nat) : Nat := ((range r).filter (Keeps ign n)).card

/-- The ignore field has one mark for each of the `n` degrees of freedom. -/
def Fits (ign : Option (NVec Bool)) (n : Nat) : Prop := ∀ v, ign = some v → v.leaves.length = n

/-- Nothing that `setMatrix` with this ignore field would leave in place was put into the index map by earlier calls: without an
ignore field the map is empty, with one no ignored degree of freedom has an index. -/
def Clean (o : Obj K) (ign : Option (NVec Bool)) : Prop :=
  match ign with
  | none => o.sub = []
  | some v => ∀ r : Nat, v.leaves[r]? = some true → ∀ k, o.sub[r]? ≠ some (some k)

/-- The part of a packed sparse matrix the library looks at: the entries before the end of the last column. -/
def packed (X : Ccs.Mat K) : Ccs.Mat K :=
  { X with nnz := X.colstart.getLastD 0, values := X.values.take (X.colstart.getLastD 0),
           rowindex := X.rowindex.take (X.colstart.getLastD 0) }

/-- The arrays hold the value `v` at row `r` of column `c`. -/
def Reads (X : Ccs.Mat K) (r c : Nat) (v : K) : Prop :=
  ∃ a e k, rd X.colstart c = .ok a ∧ rd X.colstart (c + 1) = .ok e ∧ a ≤ k ∧ k < e ∧ rd X.rowindex k = .ok r ∧ rd X.values k = .ok v

variable [CommRing K]

/-- `m` is the matrix with the entries the arrays hold, and zeros elsewhere. -/
def Describes (X : Ccs.Mat K) (m : Nat → Nat → K) : Prop :=
  ∀ r c, (∀ v, Reads X r c v → m r c = v) ∧ ((∀ v, ¬ Reads X r c v) → m r c = 0)

/-- What the library promises for a symmetric matrix of which the lower part is stored (`stype = -1`): the entry `(i,j)` of the
matrix is the stored one with the larger index as its row. -/
def Solves (X : Ccs.Mat K) (x b : List K) : Prop :=
  ∀ m, Describes (packed X) m → ∀ i, i < X.N →
    ∑ j ∈ range X.N, (if j ≤ i then m i j else m j i) * x.getD j 0 = b.getD i 0

/-- The factorization of `X` works: the library solves the system for every right hand side. -/
def Factorizes (solve : Ccs.Mat K → List K → List K) (X : Ccs.Mat K) : Prop :=
  ∀ b, b.length = X.N → (solve X b).length = X.N ∧ Solves X (solve X b) b

/-- `a` is the flat matrix of `A`, zero where nothing is stored. -/
def IsValue (A : NMat K) (a : Nat → Nat → K) : Prop :=
  ∀ r c, (∀ v, At A r c v → a r c = v) ∧ ((∀ v, ¬ At A r c v) → a r c = 0)

end Cholmod
end Istl

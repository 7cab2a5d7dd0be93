import Verif.Model.Dependency
import Verif.Spec.SpMat

/-!
# What the dependency criteria should decide

Written with the entries `A.entry i j` of the matrix only.
-/

namespace Istl
namespace Amg

variable {B R : Type} [Zero B] [Field R] [LinearOrder R]

/-- `M` is the largest element of `S`, or `lo` if that is larger or `S` is empty. -/
def IsMaxFrom (lo : R) (S : Set R) (M : R) : Prop := lo ≤ M ∧ (∀ s ∈ S, s ≤ M) ∧ (M = lo ∨ M ∈ S)

/-- A positive coupling is disregarded by the norms that keep the sign. -/
def NormF.Counts (N : NormF B R) (b : B) : Prop := N.keepsSign = false ∨ N.val b < 0

/-- `j` is another vertex that row `i` couples to. -/
def Neighbour (A : SpMat B) (i j : Nat) : Prop := A.Has i j ∧ j ≠ i

/-- `|a_ij|² / (|a_ii| |a_jj|)`, the measure of `SymmetricMatrixDependency`; 0 for a disregarded coupling. -/
noncomputable def sqCoupling (N : NormF B R) (A : SpMat B) (i j : Nat) : R :=
  open Classical in
  if N.Counts (A.entry i j) then
    N.val (A.entry i j) * N.val (A.entry i j) / (N.val (A.entry i i) * N.val (A.entry j j))
  else 0

/-- `|a_ij| |a_ji| / (|a_ii| |a_jj|)`, the measure of `SymmetricDependency`. -/
def prodCoupling (N : NormF B R) (A : SpMat B) (i j : Nat) : R :=
  N.val (A.entry i j) * N.val (A.entry j i) / (N.val (A.entry i i) * N.val (A.entry j j))

/-- The couplings that `SymmetricDependency` looks at: both entries are stored and one of them counts. -/
def BothWays (N : NormF B R) (A : SpMat B) (i j : Nat) : Prop :=
  Neighbour A i j ∧ A.Has j i ∧ (N.Counts (A.entry i j) ∨ N.Counts (A.entry j i))

/-- The couplings of row `i` that `SymmetricMatrixDependency` takes the maximum of. -/
def sqSet (N : NormF B R) (A : SpMat B) (i : Nat) : Set R :=
  {x | ∃ j, Neighbour A i j ∧ N.Counts (A.entry i j) ∧ x = sqCoupling N A i j}

/-- The couplings of row `i` that `SymmetricDependency` takes the maximum of. -/
def prodSet (N : NormF B R) (A : SpMat B) (i : Nat) : Set R := {x | ∃ j, BothWays N A i j ∧ x = prodCoupling N A i j}

/-- The couplings of row `i` that `Dependency` takes the maximum of. -/
def negSet (N : NormF B R) (A : SpMat B) (i : Nat) : Set R := {x | ∃ j, Neighbour A i j ∧ x = -(N.val (A.entry i j))}

/-- Row `i` has no coupling at all. -/
def NoOff (frob : B → R) (A : SpMat B) (i : Nat) : Prop := ∀ j, Neighbour A i j → frob (A.entry i j) = 0

/-- A square, well formed matrix that stores all its diagonal blocks. -/
structure StoredDiag (A : SpMat B) : Prop where
  wf : A.WF
  sq : A.n = A.m
  has : ∀ i < A.n, A.Has i i

/-- The matrices the criteria are made for: the norms of the diagonal blocks are not zero. -/
structure Diagonals (N : NormF B R) (A : SpMat B) : Prop extends StoredDiag A where
  ne : ∀ i < A.n, N.val (A.entry i i) ≠ 0

/-- The rows and columns of `A` scaled: entry `(i,j)` is `(d i * e j) • a_ij`. -/
def scaled [SMul R B] (d e : Nat → R) (A : SpMat B) : SpMat B :=
  ⟨A.n, A.m, fun i => (A.row i).map fun x => (x.1, (d i * e x.1) • x.2)⟩

end Amg
end Istl

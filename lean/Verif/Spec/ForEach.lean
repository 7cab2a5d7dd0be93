import Verif.Model.ForEach
import Mathlib.Algebra.BigOperators.Intervals

/-! # Specification: the flat vector and the flat matrix behind a nested container -/

namespace Istl
namespace ForEach

open Finset

variable {S : Type}

/-- All scalars of a nested vector, from left to right. -/
def NVec.leaves : NVec S → List S
  | .scalar s => [s]
  | .node n child => (List.range n).flatMap fun i => (child i).leaves

/-- `Dim A R C`: the blocks of `A` are well aligned at every level, and the flat matrix has `R` rows and `C` columns. In a
sparse matrix all blocks have the same size `br × bc`, which is positive; in any other matrix the blocks of one block row have
the same height and those of one block column the same width, and there is at least one row and one column. -/
inductive Dim : NMat S → Nat → Nat → Prop
  | scalar (s : S) : Dim (.scalar s) 1 1
  | sparse (n m : Nat) (pat : Nat → List Nat) (entry : Nat → Nat → NMat S) (dflt : NMat S) (br bc : Nat)
      (hbr : 0 < br) (hbc : 0 < bc) (hpat : ∀ i, i < n → (pat i).Nodup ∧ ∀ j ∈ pat i, j < m)
      (hblk : ∀ i j, i < n → j ∈ pat i → Dim (entry i j) br bc)
      (hdflt : (∀ i, i < n → pat i = []) → Dim dflt br bc) :
      Dim (.sparse n m pat entry dflt) (n * br) (m * bc)
  | dense (n m : Nat) (entry : Nat → Nat → NMat S) (h w : Nat → Nat) (hn : 0 < n) (hm : 0 < m)
      (hblk : ∀ i j, i < n → j < m → Dim (entry i j) (h i) (w j)) :
      Dim (.dense n m entry) (∑ i ∈ range n, h i) (∑ j ∈ range m, w j)

/-- `At A r c s`: the flat matrix stores the scalar `s` at row `r` and column `c`. -/
inductive At : NMat S → Nat → Nat → S → Prop
  | scalar (s : S) : At (.scalar s) 0 0 s
  | sparse (n m : Nat) (pat : Nat → List Nat) (entry : Nat → Nat → NMat S) (dflt : NMat S) (br bc i j r c : Nat) (s : S)
      (hi : i < n) (hj : j ∈ pat i) (hd : Dim (entry i j) br bc) (hs : At (entry i j) r c s) :
      At (.sparse n m pat entry dflt) (i * br + r) (j * bc + c) s
  | dense (n m : Nat) (entry : Nat → Nat → NMat S) (h w : Nat → Nat) (i j r c : Nat) (s : S) (hi : i < n) (hj : j < m)
      (hd : ∀ i j, i < n → j < m → Dim (entry i j) (h i) (w j)) (hs : At (entry i j) r c s) :
      At (.dense n m entry) (∑ k ∈ range i, h k + r) (∑ k ∈ range j, w k + c) s

/-- In every sparse matrix inside `A` the column indices of each row are stored in ascending order. -/
inductive Ascending : NMat S → Prop
  | scalar (s : S) : Ascending (.scalar s)
  | sparse (n m : Nat) (pat : Nat → List Nat) (entry : Nat → Nat → NMat S) (dflt : NMat S)
      (hpat : ∀ i, i < n → (pat i).Pairwise (· < ·)) (hblk : ∀ i j, i < n → j ∈ pat i → Ascending (entry i j)) :
      Ascending (.sparse n m pat entry dflt)
  | dense (n m : Nat) (entry : Nat → Nat → NMat S) (hblk : ∀ i j, i < n → j < m → Ascending (entry i j)) :
      Ascending (.dense n m entry)

/-- The outermost matrix has a row and a column. -/
def NonEmpty {S : Type} : NMat S → Prop
  | .scalar _ => True
  | .sparse n m _ _ _ => 0 < n ∧ 0 < m
  | .dense n m _ => 0 < n ∧ 0 < m

end ForEach
end Istl

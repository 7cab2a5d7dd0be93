import Verif.Model.Redistribute
import Verif.Spec.ParGalerkin
import Verif.Spec.SpMat

/-!
# Specification of the redistribution of a matrix
-/

namespace Istl
namespace Par
open Amg

variable {B : Type}

/-- The setting: two decompositions of the same global indices, and local matrices on the old one. The matrices are square, the rows
of owned indices have a diagonal entry (the code asserts that the rows that are sent are not empty). -/
structure Setting (P : Nat) (old new : Nat → PIS) (osz nsz : Nat → Nat) (G : Finset Nat) (gmax : Nat) (A : Nat → SpMat B) : Prop where
  dold : Decomp P old osz G
  dnew : Decomp P new nsz G
  wf : ∀ p, p < P → (A p).WF
  rows : ∀ p, p < P → (A p).n = osz p
  cols : ∀ p, p < P → (A p).m = osz p
  diag : ∀ p, p < P → ∀ e ∈ old p, e.attr = .owner → (A p).Has e.loc e.loc
  gfree : gmax ∉ G

/-- The old owner (index set `old`, matrix `A`) has the value `b` in its row of the index `e0` at the column whose global index is that
of `f`, and the column does not have the attribute `overlap` there. -/
def Sent (old : PIS) (A : SpMat B) (e0 f : Idx) (b : B) : Prop :=
  ∃ f0 ∈ old, f0.g = f.g ∧ f0.attr ≠ .overlap ∧ (f0.loc, b) ∈ A.row e0.loc

/-- The messages of all processes arrive, in any order, in each of the three communications. -/
structure Orders.Complete (P : Nat) (o : Orders) : Prop where
  sizes : o.sizes.Perm (List.range P)
  pattern : o.pattern.Perm (List.range P)
  values : o.values.Perm (List.range P)

/-- `N` is the redistributed matrix on the process with the index set `new`: the rows of owned indices hold exactly what the old owner
of the row sent and the new index set knows; the rows of the other indices are the identity, with the pattern of the transposed
entries of owned rows. -/
structure Redistributed [Zero B] (P : Nat) (old : Nat → PIS) (A : Nat → SpMat B) (one : B) (new : PIS) (N : SpMat B) : Prop where
  wf : N.WF
  n : N.n = new.length
  m : N.m = new.length
  owner : ∀ e ∈ new, e.attr = .owner → ∀ p, p < P → ∀ e0 ∈ old p, e0.g = e.g → e0.attr = .owner →
    ∀ f ∈ new, ∀ b, (f.loc, b) ∈ N.row e.loc ↔ Sent (old p) (A p) e0 f b
  other : ∀ e ∈ new, e.attr ≠ .owner → ∀ f ∈ new, ∀ b, (f.loc, b) ∈ N.row e.loc ↔
    (f = e ∧ b = one) ∨ (f.attr = .owner ∧ N.Has f.loc e.loc ∧ b = 0)

end Par
end Istl

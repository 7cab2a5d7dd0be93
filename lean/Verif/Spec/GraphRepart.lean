import Verif.Model.GraphRepart
import Verif.Spec.Repartition
import Mathlib.Algebra.BigOperators.Group.Finset.Basic
import Mathlib.Order.Interval.Finset.Nat
import Mathlib.Data.Nat.Count

/-!
# Specification: index sets with holes, global numbering
-/

namespace Istl
namespace Par
open Amg

/-- A decomposition in which a process need not have an entry for each of its unknowns: each global index has exactly one owner, but
unknowns that take part in no communication may be missing. -/
structure Holed (P : Nat) (pis : Nat → PIS) (n : Nat → Nat) (G : Finset Nat) : Prop where
  ok : ∀ p, p < P → PisOk (pis p)
  bounded : ∀ p, p < P → ∀ e ∈ pis p, e.loc < n p
  inG : ∀ p, p < P → ∀ e ∈ pis p, e.g ∈ G
  owned : ∀ g ∈ G, ∃ p, p < P ∧ ∃ e ∈ pis p, e.g = g ∧ e.attr = .owner
  unique : ∀ p q, p < P → q < P → ∀ e ∈ pis p, ∀ f ∈ pis q, e.attr = .owner → f.attr = .owner → e.g = f.g → p = q

/-- Number of unknowns of process `p` that have no entry in the index set. -/
def holes (n : Nat) (A : PIS) : Nat := ((List.range n).filter fun v => ∀ e ∈ A, e.loc ≠ v).length

/-- Number of indices owned by the process. -/
def owners (A : PIS) : Nat := (A.filter fun e => e.attr = .owner).length

/-- `ν` numbers the global indices consecutively: first those owned by process 0 in the order of its local indices, then those of process 1, and
so on. -/
structure Numbering (P : Nat) (pis : Nat → PIS) (G : Finset Nat) (ν : Nat → Nat) : Prop where
  inj : ∀ g ∈ G, ∀ h ∈ G, ν g = ν h → g = h
  range : ∀ k, k < G.card ↔ ∃ g ∈ G, ν g = k
  block : ∀ p, p < P → ∀ e ∈ pis p, e.attr = .owner →
    ∑ x ∈ Finset.range p, owners (pis x) ≤ ν e.g ∧ ν e.g < ∑ x ∈ Finset.range (p + 1), owners (pis x)
  order : ∀ p, p < P → ∀ e ∈ pis p, ∀ f ∈ pis p, e.attr = .owner → f.attr = .owner → e.loc < f.loc → ν e.g < ν f.g

end Par
end Istl

import Verif.Model.Parallel
import Mathlib.Data.Finset.Basic

/-!
# Specification of a distributed index set and of distributed vectors
-/

namespace Istl
namespace Par

/-- A well-formed index set of one process: ordered by global index, and no local index used twice. -/
structure PisOk (A : PIS) : Prop where
  sorted : A.Pairwise fun a b => a.g < b.g
  locs : (A.map fun e => e.loc).Nodup

/-- The index `g` is known on the process with index set `A` as `e`. -/
def Known (A : PIS) (g : Nat) (e : Idx) : Prop := e ∈ A ∧ e.g = g

/-- A decomposition of the finite global index set `G` over `P` processes, process `p` having `sz p` unknowns: each unknown is an index
of the index set, and each global index has exactly one owner. -/
structure Decomp (P : Nat) (pis : Nat → PIS) (sz : Nat → Nat) (G : Finset Nat) : Prop where
  ok : ∀ p, p < P → PisOk (pis p)
  bounded : ∀ p, p < P → ∀ e ∈ pis p, e.loc < sz p
  covered : ∀ p, p < P → ∀ i, i < sz p → ∃ e ∈ pis p, e.loc = i
  inG : ∀ p, p < P → ∀ e ∈ pis p, e.g ∈ G
  owned : ∀ g ∈ G, ∃ p, p < P ∧ ∃ e ∈ pis p, e.g = g ∧ e.attr = .owner
  unique : ∀ p q, p < P → q < P → ∀ e ∈ pis p, ∀ f ∈ pis q, e.attr = .owner → f.attr = .owner → e.g = f.g → p = q

/-- The local vectors `x` hold the values of the global vector `X` at the owned indices (consistency as required by `dot`). -/
def ConsistentAtOwner {V : Type} (P : Nat) (pis : Nat → PIS) (x : Nat → Nat → V) (X : Nat → V) : Prop :=
  ∀ p, p < P → ∀ e ∈ pis p, e.attr = .owner → x p e.loc = X e.g

/-- The local vectors `x` hold the values of the global vector `X` at every index. -/
def Consistent {V : Type} (P : Nat) (pis : Nat → PIS) (x : Nat → Nat → V) (X : Nat → V) : Prop :=
  ∀ p, p < P → ∀ e ∈ pis p, x p e.loc = X e.g

end Par
end Istl

import Verif.Model.Repartition
import Verif.Spec.Parallel
import Verif.Spec.Aggregates

/-!
# Specification of the new decomposition
-/

namespace Istl
namespace Par
open Amg

/-- The input of `buildCommunication`: a decomposition of `G`, a graph on the indices of each process, and the vectors `setPartition`: index `g`
goes to process `W g`, and every process that knows `g` says so. -/
structure Assign (P : Nat) (old : Nat → PIS) (osz : Nat → Nat) (G : Finset Nat) (gr : Nat → Graph) (parts : Nat → List Nat) (W : Nat → Nat) :
    Prop where
  dec : Decomp P old osz G
  wf : ∀ p, p < P → (gr p).WF
  n : ∀ p, p < P → (gr p).n = osz p
  len : ∀ p, p < P → (parts p).length = osz p
  val : ∀ p, p < P → ∀ e ∈ old p, (parts p)[e.loc]? = some (W e.g)
  lt : ∀ g ∈ G, W g < P

/-- `g` and `h` are joined by an edge in the graph of the owner of `g`. -/
def OwnEdge (P : Nat) (old : Nat → PIS) (gr : Nat → Graph) (g h : Nat) : Prop :=
  ∃ p, p < P ∧ ∃ e ∈ old p, e.attr = .owner ∧ e.g = g ∧ ∃ f ∈ old p, f.g = h ∧ f.loc ∈ (gr p).adj e.loc

/-- The index set `new` is the one process `q` should have: the owned indices are those assigned to `q`; copies are the end points of edges
starting at owned indices; there is no other entry. Local indices are consecutive, first the owned ones in the order of the global
indices, then the copies in that order. -/
structure NewSet (P : Nat) (old : Nat → PIS) (G : Finset Nat) (gr : Nat → Graph) (W : Nat → Nat) (q : Nat) (new : PIS) : Prop where
  ok : PisOk new
  owner : ∀ g, (∃ e ∈ new, e.g = g ∧ e.attr = .owner) ↔ g ∈ G ∧ W g = q
  copy : ∀ g, (∃ e ∈ new, e.g = g ∧ e.attr = .copy) ↔ W g ≠ q ∧ ∃ g0, W g0 = q ∧ OwnEdge P old gr g0 g
  attr : ∀ e ∈ new, e.attr ≠ .overlap
  bounded : ∀ e ∈ new, e.loc < new.length
  ownerFirst : ∀ e ∈ new, ∀ f ∈ new, e.attr = .owner → f.attr = .copy → e.loc < f.loc
  ascending : ∀ e ∈ new, ∀ f ∈ new, e.attr = f.attr → e.g < f.g → e.loc < f.loc

/-- The processes `q` should know as neighbours: those to which an index goes that is joined to an index of `q` and is not sent to `q` by
the same process. -/
def NewNeighbour (P : Nat) (old : Nat → PIS) (gr : Nat → Graph) (W : Nat → Nat) (q n : Nat) : Prop :=
  ∃ p, p < P ∧ ∃ e ∈ old p, e.attr = .owner ∧ W e.g = q ∧ ∃ f ∈ old p, f.loc ∈ (gr p).adj e.loc ∧ (W f.g ≠ q ∨ f.attr ≠ .owner) ∧ W f.g = n

end Par
end Istl

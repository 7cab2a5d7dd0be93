import Verif.Spec.GraphRepart

/-!
# Specification: domains and processes
-/

namespace Istl
namespace Par
open Amg

/-- `m` maps the domains to different processes. -/
structure DomainMapping (npes nparts : Nat) (m : List Nat) : Prop where
  len : m.length = nparts
  lt : ∀ w ∈ m, w < npes
  different : m.Nodup

/-- Domain `i` is mapped to a process with as many vertices of it as any process that did not get a smaller domain it holds vertices of.
`part p` is the result of the partitioner on process `p`: the domain of each of its vertices. -/
def BestMapping (npes : Nat) (part : Nat → List Nat) (m : List Nat) : Prop :=
  ∀ i w : Nat, m[i]? = some w → ∀ p, p < npes →
    (∀ i' w' : Nat, i' < i → m[i']? = some w' → 0 < (part w').count i' → w' ≠ p) → (part p).count i ≤ (part w).count i

/-- The owned indices of each process, in the order of the global indices, go to the processes of the domains in `part`, taken in order. -/
def InOrder (P : Nat) (pis : Nat → PIS) (part : Nat → List Nat) (m : List Nat) (W : Nat → Nat) : Prop :=
  ∀ p, p < P → ((pis p).filter fun e => e.attr = .owner).map (fun e => some (W e.g)) = (part p).map fun d => m[d]?

/-- What the partitioner meant: the entry of `part` for the vertex with number `ν g` is the domain of `g`. -/
def AsNumbered (P : Nat) (pis : Nat → PIS) (part : Nat → List Nat) (m : List Nat) (ν W : Nat → Nat) : Prop :=
  ∀ p, p < P → ∀ e ∈ pis p, e.attr = .owner →
    ∃ d, (part p)[ν e.g - ∑ x ∈ Finset.range p, owners (pis x)]? = some d ∧ m[d]? = some (W e.g)

end Par
end Istl

import Verif.Model.ParCoarsen
import Verif.Spec.Parallel
import Verif.Spec.Aggregates

/-!
# Specification of the coarsening on several processes
-/

namespace Istl
namespace Amg
open Par

/-- A distribution of (some of) the unknowns over `P` processes, process `p` having `n p` of them: local index sets with unique
global and local indices, and every global index known anywhere is owned by exactly one process. -/
structure Shared (P : Nat) (pis : Nat → PIS) (n : Nat → Nat) : Prop where
  ok : ∀ p, p < P → PisOk (pis p)
  bounded : ∀ p, p < P → ∀ e ∈ pis p, e.loc < n p
  owned : ∀ p, p < P → ∀ e ∈ pis p, ∃ q, q < P ∧ ∃ f ∈ pis q, f.g = e.g ∧ f.attr = .owner
  unique : ∀ p q, p < P → q < P → ∀ e ∈ pis p, ∀ f ∈ pis q, e.attr = .owner → f.attr = .owner → e.g = f.g → p = q

/-- The vertex belongs to another process. -/
def Foreign (A : PIS) (v : Nat) : Prop := ∃ e ∈ A, e.loc = v ∧ e.attr ≠ .owner

instance (A : PIS) (v : Nat) : Decidable (Foreign A v) := by unfold Foreign; infer_instance

/-- The aggregates map of the owned vertices; the others belong to no aggregate of this process. -/
def ownMap (A : PIS) (agg : Nat → Agg) (v : Nat) : Agg := if Foreign A v then .iso else agg v

/-- Every aggregate of the process is connected by edges between its vertices (as the aggregation guarantees). -/
def OwnConnected (G : Graph) (A : PIS) (agg : Nat → Agg) : Prop := ConnectedAggs G (ownMap A agg)

/-- What the coarsening of the index sets `pis` with the maps `agg` (each process has aggregated its own vertices) has to give: index
sets `C` and numbers `N` of coarse unknowns for every process, together with the map `F` from global fine to global coarse indices
(`none`: isolated). -/
structure Coarsening (P : Nat) (pis : Nat → PIS) (n : Nat → Nat) (agg : Nat → Nat → Agg) (C : Nat → PIS) (N : Nat → Nat)
    (F : Nat → Option Nat) : Prop where
  /-- again a distribution in which each index has exactly one owner -/
  shared : Shared P C N
  /-- vertices of one process are in the same coarse index iff they were in the same aggregate -/
  aggregate : ∀ p, p < P → ∀ e ∈ pis p, ∀ f ∈ pis p, e.attr = .owner → f.attr = .owner → agg p e.loc ≠ .iso →
    (F e.g = F f.g ↔ agg p e.loc = agg p f.loc)
  /-- only isolated vertices have no coarse index -/
  isolated : ∀ p, p < P → ∀ e ∈ pis p, e.attr = .owner → (F e.g = none ↔ agg p e.loc = .iso)
  /-- a process knows the coarse index of every fine index it knows, and owns it iff it owns the fine index -/
  known : ∀ p, p < P → ∀ e ∈ pis p, ∀ i, F e.g = some i → ∃ c ∈ C p, c.g = i ∧ (c.attr = .owner ↔ e.attr = .owner)
  /-- and it knows no other coarse indices -/
  onto : ∀ p, p < P → ∀ c ∈ C p, ∃ e ∈ pis p, F e.g = some c.g ∧ (c.attr = .owner ↔ e.attr = .owner)
  /-- on another process a coarse index is a copy iff one of its fine indices is -/
  copies : ∀ p, p < P → ∀ c ∈ C p, (c.attr = .copy ↔ ∃ e ∈ pis p, F e.g = some c.g ∧ e.attr = .copy)
  /-- if all fine unknowns are in the index sets, so are all coarse ones -/
  covered : (∀ p, p < P → ∀ v, v < n p → ∃ e ∈ pis p, e.loc = v) → ∀ p, p < P → ∀ l, l < N p → ∃ c ∈ C p, c.loc = l
  /-- the global index of an aggregate is that of one of its vertices -/
  member : ∀ p, p < P → ∀ c ∈ C p, F c.g = some c.g

/-- The maps `agg'` of all processes express `F`: every fine index a process knows is assigned to the local number of its coarse
index. -/
def Published (P : Nat) (pis C : Nat → PIS) (F : Nat → Option Nat) (agg' : Nat → Nat → Agg) : Prop :=
  ∀ p, p < P → ∀ e ∈ pis p, match F e.g with
    | none => agg' p e.loc = .iso
    | some i => ∃ c ∈ C p, c.g = i ∧ agg' p e.loc = .id c.loc

end Amg
end Istl

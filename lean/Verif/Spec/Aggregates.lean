import Verif.Model.Aggregator
import Mathlib.Data.Finset.Card
import Mathlib.Logic.Relation

/-! # Specification: aggregates as classes of vertices -/

namespace Istl
namespace Amg

/-- The edges lead to vertices of the graph. -/
def Graph.WF (G : Graph) : Prop := ∀ u, u < G.n → ∀ t ∈ G.adj u, t < G.n

/-- `v` is the first vertex of its aggregate (isolated vertices belong to none). -/
def IsFirst (agg : Nat → Agg) (v : Nat) : Prop := agg v ≠ .iso ∧ ∀ u, u < v → agg u ≠ agg v

instance (agg : Nat → Agg) : DecidablePred (IsFirst agg) := fun v => by unfold IsFirst; infer_instance

/-- The number of aggregates whose first vertex is below `v`. -/
def numBelow (agg : Nat → Agg) (v : Nat) : Nat := ((Finset.range v).filter (IsFirst agg)).card

/-- Every aggregate is connected: from its first vertex each of its vertices is reached by edges within the aggregate. -/
def ConnectedAggs (G : Graph) (agg : Nat → Agg) : Prop :=
  ∀ f v, f < G.n → v < G.n → IsFirst agg f → agg v = agg f →
    Relation.ReflTransGen (fun u t => t ∈ G.adj u ∧ agg t = agg f) f v

/-- Aggregates are numbered in the order of their first vertices. -/
def Numbered (G : Graph) (agg : Nat → Agg) : Prop := ∀ f, f < G.n → IsFirst agg f → agg f = .id (numBelow agg f)

/-- An edge leads from a vertex of aggregate `a` to a vertex of aggregate `b`. -/
def Coupled (G : Graph) (agg : Nat → Agg) (a b : Nat) : Prop :=
  ∃ i j, i < G.n ∧ agg i = .id a ∧ j ∈ G.adj i ∧ agg j = .id b

/-- The maps a greedy aggregation can have made after looking at the vertices `0, …, i-1` in order, with `k` aggregates so far: a
vertex that has no aggregate yet is marked isolated if the criterion says so; otherwise it becomes the seed of a new aggregate, a
connected set of at most `maxSize` vertices without an aggregate (never an empty one; without isolated vertices if the seed is not
isolated), or it is put into the aggregate of a neighbour it has a strong connection with; the last
only happens when no neighbour without aggregate depends on it (for a minimal size of at least 2). -/
inductive Coarsened (G : Graph) (P : Props) (c : Crit) : Nat → Nat → (Nat → Agg) → Prop
  | start : Coarsened G P c 0 0 (fun _ => .unagg)
  | done {i k agg} : Coarsened G P c i k agg → agg i ≠ .unagg → Coarsened G P c (i + 1) k agg
  | skip {i k agg} : Coarsened G P c i k agg → agg i = .unagg →
      (P.excluded i = true ∨ (P.isolated i = true ∧ c.skipIsolated = true)) → Coarsened G P c (i + 1) k (upd agg i .iso)
  | grown {i k agg} : Coarsened G P c i k agg → agg i = .unagg →
      P.excluded i = false → (P.isolated i = true → c.skipIsolated = false) →
      (core : List Nat) → core.Nodup → core.length ≤ max 1 c.maxSize → i ∈ core → (∀ v ∈ core, agg v = .unagg) → (∀ v ∈ core, v < G.n) →
      (∀ v ∈ core, Relation.ReflTransGen (fun u t => t ∈ G.adj u ∧ t ∈ core) i v) →
      (P.isolated i = false → ∀ v ∈ core, P.isolated v = false) →
      (agg' : Nat → Agg) → (∀ v, agg' v = if v ∈ core then .id k else agg v) → Coarsened G P c (i + 1) (k + 1) agg'
  | merged {i k agg} : Coarsened G P c i k agg → agg i = .unagg → P.excluded i = false → P.isolated i = false → 1 < c.maxSize →
      (t : Nat) → t ∈ G.adj i → agg t ≠ .unagg → P.isolated t = false → (P.dep i t = true ∨ P.infl i t = true) →
      (2 ≤ c.minSize → 1 ≤ c.maxDistance → ∀ u ∈ G.adj i, u ≠ i → agg u = .unagg → P.isolated u = true ∨ P.dep u i = false) →
      Coarsened G P c (i + 1) k (upd agg i (agg t))

end Amg
end Istl

import Verif.Spec.Aggregates

/-!
# Specification: walks within an aggregate
-/

namespace Istl
namespace Amg
variable {σ : Type}

/-- `t` is reached from `start` by a walk with `k` edges whose vertices (but for `start`) are unmarked members of the aggregate. -/
def Walk (G : Graph) (a : Agg) (A : Nat → Agg) (m : Nat → Bool) (start : Nat) : Nat → Nat → Prop
  | 0, t => t = start
  | k + 1, t => ∃ u, Walk G a A m start k u ∧ t ∈ G.adj u ∧ A t = a ∧ m t = false

/-- `t` has distance `k` from `start`. -/
def Distance (G : Graph) (a : Agg) (A : Nat → Agg) (m : Nat → Bool) (start k t : Nat) : Prop :=
  Walk G a A m start k t ∧ ∀ j < k, ¬ Walk G a A m start j t

/-- A call of a visitor: for an edge to a new vertex of the aggregate, or for one to another aggregate. -/
inductive Event where
  | inner (u t : Nat)
  | outer (u t : Nat)
  deriving DecidableEq

/-- The visitors react to the calls. -/
def replay (V : Visitor σ) (d : σ) (log : List Event) : σ :=
  log.foldl (fun d e => match e with | .inner u t => V.inner d u t | .outer u t => V.outer d u t) d

/-- The edges to new vertices. -/
def Event.inner? : Event → Option (Nat × Nat)
  | .inner u t => some (u, t)
  | .outer _ _ => none
/-- The edges to other aggregates. -/
def Event.outer? : Event → Option (Nat × Nat)
  | .inner _ _ => none
  | .outer u t => some (u, t)

/-- The visitors leave the aggregates map alone. -/
def Visitor.Passive (V : Visitor σ) : Prop :=
  ∀ d u t w, V.agg (V.inner d u t) w = V.agg d w ∧ V.agg (V.outer d u t) w = V.agg d w

end Amg
end Istl

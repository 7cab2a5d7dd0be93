import Verif.Model.ParGalerkin
import Verif.Spec.ParCoarsen
import Verif.Spec.Schwarz
import Mathlib.Data.Finset.Option

/-! # Specification of distributed coarse matrices -/

namespace Istl
namespace Amg
open Par Finset

/-- The numbering of the aggregates on a process with `N` of them: first the `k` aggregates of its own vertices, in the order of their
first vertices, then those of the vertices of other processes, all of them in use. -/
structure OwnFirst (G : Graph) (A : PIS) (m : Nat → Agg) (k N : Nat) : Prop where
  connected : OwnConnected G A m
  numbered : Numbered G (ownMap A m)
  count : k = numBelow (ownMap A m) G.n
  le : k ≤ N
  foreign : ∀ v, v < G.n → Foreign A v → m v = .iso ∨ ∃ a, k ≤ a ∧ a < N ∧ m v = .id a
  used : ∀ a, k ≤ a → a < N → ∃ v, v < G.n ∧ Foreign A v ∧ m v = .id a

/-- The local matrices hold, in the rows of the indices with a good attribute, the rows of the matrix `M` on the global index set `G`: all
columns of these rows are known to the process. Nothing is said about the other rows. -/
structure DistMat {B : Type} [AddCommGroup B] (good : Attr → Prop) (P : Nat) (pis : Nat → PIS) (sz : Nat → Nat) (G : Finset Nat)
    (A : Nat → SpMat B) (M : Nat → Nat → B) : Prop where
  wf : ∀ p, p < P → (A p).WF
  rows : ∀ p, p < P → (A p).n = sz p
  cols : ∀ p, p < P → (A p).m = sz p
  entry : ∀ p, p < P → ∀ e ∈ pis p, good e.attr → ∀ f ∈ pis p, (A p).entry e.loc f.loc = M e.g f.g
  closed : ∀ p, p < P → ∀ e ∈ pis p, good e.attr → ∀ h ∈ G, (∀ f ∈ pis p, f.g ≠ h) → M e.g h = 0

/-- The Galerkin product of the global matrix `M` for the map `F` from fine to coarse indices: entry `(I,J)` is the sum of the entries
`(g,h)` with `F g = I` and `F h = J`. -/
def coarseMat {B : Type} [AddCommMonoid B] (G : Finset Nat) (F : Nat → Option Nat) (M : Nat → Nat → B) (I J : Nat) : B :=
  ∑ g ∈ G, ∑ h ∈ G, if F g = some I ∧ F h = some J then M g h else 0

/-- The coarse indices. -/
def coarseSet (G : Finset Nat) (F : Nat → Option Nat) : Finset Nat := Finset.eraseNone (G.image F)

/-- `S` is a symmetric coupling graph for the distributed matrix: the entries stored in the rows of owned indices couple neighbours in it,
and a process knows all neighbours of an index that it has as owner or overlap (the attribute `copy` marks the rim, whose rows are not
complete). -/
structure OverlapPat {B : Type} (P : Nat) (pis : Nat → PIS) (A : Nat → SpMat B) (S : Nat → Nat → Prop) : Prop where
  symm : ∀ g h, S g h → S h g
  stored : ∀ p, p < P → ∀ e ∈ pis p, e.attr = .owner → ∀ f ∈ pis p, (A p).Has e.loc f.loc → S e.g f.g
  known : ∀ p, p < P → ∀ e ∈ pis p, e.attr ≠ .copy → ∀ h, S e.g h → ∃ f ∈ pis p, f.g = h

end Amg
end Istl

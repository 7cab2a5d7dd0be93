import Verif.Spec.Parallel
import Verif.Spec.SpMat
import Verif.Model.Schwarz
import Mathlib.Algebra.BigOperators.Group.Finset.Basic

/-! # Specification of distributed matrices and vectors -/

namespace Istl
namespace Par
variable {B V : Type} [AddCommGroup B] [AddCommGroup V]

/-- The product of the global matrix `M` with the global vector `X`. -/
def globalMul (β : BlockAct B V V) (G : Finset Nat) (M : Nat → Nat → B) (X : Nat → V) (g : Nat) : V := ∑ h ∈ G, β.mul (M g h) (X h)

/-- The local vectors hold the global values except at the copy indices, where they are zero: what the overlapping operator produces
and what its preconditioners get. -/
def Projected (P : Nat) (pis : Nat → PIS) (y : Nat → Nat → V) (Y : Nat → V) : Prop :=
  ∀ p, p < P → ∀ e ∈ pis p, y p e.loc = if e.attr = .copy then 0 else Y e.g

/-- As before, but anything at the copy indices (a right hand side as given by the user). -/
def ConsistentExceptCopy (P : Nat) (pis : Nat → PIS) (y : Nat → Nat → V) (Y : Nat → V) : Prop :=
  ∀ p, p < P → ∀ e ∈ pis p, e.attr ≠ .copy → y p e.loc = Y e.g

/-- The local vectors hold the global values except at the overlap (ghost) indices. -/
def ConsistentExceptOverlap (P : Nat) (pis : Nat → PIS) (y : Nat → Nat → V) (Y : Nat → V) : Prop :=
  ∀ p, p < P → ∀ e ∈ pis p, e.attr ≠ .overlap → y p e.loc = Y e.g

/-- The vector process `p` sees of a projected distributed vector with the global values `D`. -/
def localView (pis : Nat → PIS) (D : Nat → V) (p i : Nat) : V :=
  match (pis p).find? fun e => e.loc = i with
  | some e => if e.attr = .copy then 0 else D e.g
  | none => 0

/-- The local matrices of an overlapping decomposition of the matrix `M`: square, and the rows of all indices that are not copies are
the rows of `M` (all columns of these rows are known to the process). Nothing is said about the rows of copy indices. -/
structure OverlapMat (P : Nat) (pis : Nat → PIS) (sz : Nat → Nat) (G : Finset Nat) (A : Nat → SpMat B) (M : Nat → Nat → B) : Prop where
  wf : ∀ p, p < P → (A p).WF
  rows : ∀ p, p < P → (A p).n = sz p
  cols : ∀ p, p < P → (A p).m = sz p
  entry : ∀ p, p < P → ∀ e ∈ pis p, e.attr ≠ .copy → ∀ f ∈ pis p, (A p).entry e.loc f.loc = M e.g f.g
  closed : ∀ p, p < P → ∀ e ∈ pis p, e.attr ≠ .copy → ∀ h ∈ G, (∀ f ∈ pis p, f.g ≠ h) → M e.g h = 0

/-- Process `p` has the index `g` as owner or copy (interior or border). -/
def Holds (pis : Nat → PIS) (p g : Nat) : Prop := ∃ e ∈ pis p, e.g = g ∧ e.attr ≠ .overlap

/-- Process `p` owns the index `g`. -/
def Owns (pis : Nat → PIS) (p g : Nat) : Prop := ∃ e ∈ pis p, e.g = g ∧ e.attr = .owner

/-- The local matrices of a nonoverlapping decomposition of `M`: the entries of each process for pairs of its own and border indices are
those of `M` (assembled completely), and `M` couples no two indices that no process has together. -/
structure NonoverlapMat (P : Nat) (pis : Nat → PIS) (sz : Nat → Nat) (G : Finset Nat) (A : Nat → SpMat B) (M : Nat → Nat → B) : Prop where
  wf : ∀ p, p < P → (A p).WF
  rows : ∀ p, p < P → (A p).n = sz p
  cols : ∀ p, p < P → (A p).m = sz p
  entry : ∀ p, p < P → ∀ e ∈ pis p, e.attr ≠ .overlap → ∀ f ∈ pis p, f.attr ≠ .overlap → (A p).entry e.loc f.loc = M e.g f.g
  closed : ∀ g ∈ G, ∀ h ∈ G, (∀ p, p < P → Holds pis p g → ¬ Holds pis p h) → M g h = 0

/-- Two different processes never own one of two indices each and hold both. -/
def NoCrossOwners (P : Nat) (pis : Nat → PIS) : Prop :=
  ∀ g h p q, p < P → q < P → Owns pis p g → Owns pis q h → Holds pis p h → Holds pis q g → p = q

/-- Every index belongs to the process with the lowest rank among those that hold it. -/
def LowestRankOwns (P : Nat) (pis : Nat → PIS) : Prop := ∀ g p q, p < P → q < P → Owns pis p g → Holds pis q g → p ≤ q

/-- The values of the global vector `D` process `p` sees in the nonoverlapping case: zero at overlap (ghost) indices. -/
def novView (pis : Nat → PIS) (D : Nat → V) (p i : Nat) : V :=
  match (pis p).find? fun e => e.loc = i with
  | some e => if e.attr = .overlap then 0 else D e.g
  | none => 0

/-- The members `buildcomm`, `mask`, `bordercontribution` of the nonoverlapping operator of process `p` after any number of calls, starting
with a new object. -/
inductive NovReach {K : Type} [Ring K] [Module K V] (β : BlockAct B V V) (A : SpMat B) (pis : PIS) (ri : Remote) (p n : Nat) : NovCache → Prop
  | new : NovReach β A pis ri p n ⟨true, [], []⟩
  | call (c c' : NovCache) (alpha : K) (x y y' : Nat → V) : NovReach β A pis ri p n c → novOpOn β A pis ri p n alpha x y c = .ok (y', c') →
      NovReach β A pis ri p n c'

end Par
end Istl

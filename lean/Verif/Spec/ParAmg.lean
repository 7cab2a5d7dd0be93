import Verif.Model.ParAmg
import Verif.Spec.AmgCycle
import Verif.Spec.ParGalerkin

/-!
# Specification of the multigrid cycle on several processes: the cycle for the global problem
-/

namespace Istl
namespace Amg
open Par Finset

variable {B V K : Type}

/-- The restriction of global vectors: sums over the fine indices of a coarse one. -/
def globalRestrict [AddCommMonoid V] (G : Finset Nat) (F : Nat → Option Nat) (Y : Nat → V) (I : Nat) : V :=
  ∑ g ∈ G, if F g = some I then Y g else 0

/-- The prolongation of global vectors: every fine index gets the value of its coarse one, isolated ones get zero. -/
def globalProlong [Zero V] (F : Nat → Option Nat) (Z : Nat → V) (g : Nat) : V :=
  match F g with
  | none => 0
  | some I => Z I

/-- The global problem on a level: indices, matrix, map to the coarse indices, smoothers as operators on defects. -/
structure GlobalLevel (B V : Type) where
  G : Finset Nat
  M : Nat → Nat → B
  F : Nat → Option Nat
  pre : (Nat → V) → Nat → V
  post : (Nat → V) → Nat → V

/-- The sequential multigrid method for the global problem. -/
def globalAmg [AddCommGroup B] [AddCommGroup V] (β : BlockAct B V V) (L : Nat → GlobalLevel B V) (coarsest : Nat)
    (solve : (Nat → V) → (Nat → V) → (Nat → V) × (Nat → V) × Bool) (damp : K) (preSteps postSteps gamma : Nat) : Setup K (Nat → V) where
  coarsest := coarsest
  mat l := globalMul β (L l).G (L l).M
  pre l _ := (L l).pre
  post l _ := (L l).post
  restr l := globalRestrict (L l).G (L l).F
  prol l := globalProlong (L l).F
  solve := solve
  damp := damp
  preSteps := preSteps
  postSteps := postSteps
  gamma := gamma

/-- The smoother `W` on global vectors is what the local ones compute at the indices they own, from the defects they see. -/
def SmootherOf (P : Nat) (pis : Nat → PIS) (prec : Nat → (Nat → V) → (Nat → V) → (Nat → V)) [AddCommGroup V] (W : (Nat → V) → Nat → V) : Prop :=
  ∀ D p, p < P → ∀ e ∈ pis p, e.attr = .owner → W D e.g = prec p (fun _ => 0) (localView pis D p) e.loc

/-- The local preconditioner of a process only looks at the unknowns of the process. -/
def LocalPrec (sz : Nat → Nat) (prec : Nat → (Nat → V) → (Nat → V) → (Nat → V)) : Prop :=
  ∀ p v v' d d', (∀ i, i < sz p → v i = v' i ∧ d i = d' i) → ∀ i, i < sz p → prec p v d i = prec p v' d' i

/-- Messages of all other processes arrive, in some order. -/
def AllOthers (P : Nat) (order : Nat → List Nat) : Prop := ∀ q, q < P → (order q).Perm ((List.range P).filter (· ≠ q))

/-- Messages of all processes arrive, in some order. -/
def FromAll (P : Nat) (order : Nat → List Nat) : Prop := ∀ q, q < P → (order q).Perm (List.range P)

/-- The aggregates maps of a level describe the map `F` of global indices, and a process that has a coarse index not only as a copy knows
all its fine indices, as owner or overlap; after a redistribution: as owner. -/
structure TransferOk (P : Nat) (L : ParLevel B V) (coarse : Nat → PIS) (G : Finset Nat) (F : Nat → Option Nat) : Prop where
  decomp : Decomp P L.fine L.fineSz G
  published : Published P L.fine coarse F L.agg
  complete : ∀ p, p < P → ∀ c ∈ coarse p, c.attr ≠ .copy → ∀ g ∈ G, F g = some c.g → ∃ e ∈ L.fine p, e.g = g ∧
    match L.redist with
    | none => e.attr ≠ .copy
    | some _ => e.attr = .owner
  forth : L.redist ≠ none → FromAll P L.orderR
  back : L.redist ≠ none → FromAll P L.orderB

/-- The distributed hierarchy `L` represents the global one `H`: on every level a decomposition of the indices; on all but the coarsest
the local matrices hold the rows of the global matrix at owner and overlap indices, the smoothers are the local ones, and the aggregates
maps fit. -/
structure Represents [AddCommGroup B] [AddCommGroup V] (P : Nat) (L : Nat → ParLevel B V) (H : Nat → GlobalLevel B V) (coarsest : Nat) : Prop where
  decomp : ∀ l, l ≤ coarsest → Decomp P (L l).pis (L l).sz (H l).G
  order : ∀ l, l ≤ coarsest → AllOthers P (L l).order
  mat : ∀ l, l < coarsest → OverlapMat P (L l).pis (L l).sz (H l).G (L l).mat (H l).M
  preLocal : ∀ l, l < coarsest → LocalPrec (L l).sz (L l).pre
  postLocal : ∀ l, l < coarsest → LocalPrec (L l).sz (L l).post
  pre : ∀ l, l < coarsest → SmootherOf P (L l).pis (L l).pre (H l).pre
  post : ∀ l, l < coarsest → SmootherOf P (L l).pis (L l).post (H l).post
  transfer : ∀ l, l < coarsest → TransferOk P (L l) (L (l + 1)).pis (H l).G (H l).F

/-- The coarse solver on the processes computes the same as a solver for the global problem: from a consistent start vector and a defect
that is zero at the copies it computes a consistent result, and it reports failure on some process iff the global one does. -/
def SolverOf [AddCommGroup V] (P : Nat) (pis : Nat → PIS) (psolve : DVec V → DVec V → DVec V × DVec V × Bool)
    (solve : (Nat → V) → (Nat → V) → (Nat → V) × (Nat → V) × Bool) : Prop :=
  ∀ u r U R, Consistent P pis u U → Projected P pis r R →
    Consistent P pis (psolve u r).1 (solve U R).1 ∧ (psolve u r).2.2 = (solve U R).2.2

end Amg
end Istl

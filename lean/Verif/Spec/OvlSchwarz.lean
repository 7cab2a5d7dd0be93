import Verif.Spec.Gsetc
import Verif.Model.OvlSchwarz

/-!
# What an overlapping Schwarz method computes

A subdomain `D` is a list of row numbers. From a residual `r` the subdomain solver obtains a correction `c`, a vector that vanishes outside `D`.
-/

namespace Istl
namespace Ovl

variable {R K V : Type} [AddCommGroup V]

/-- The residual `b - A x`. -/
def resid (act : R → V →+ V) (A : SpMat R) (b x : Nat → V) : Nat → V := fun g => b g - A.apply act x g

/-- `c` is the exact correction of subdomain `D` for the residual `r`: it vanishes outside `D`, and `A c = r` in all rows of `D`. -/
structure SolvesOn (act : R → V →+ V) (A : SpMat R) (D : List Nat) (r c : Nat → V) : Prop where
  supp : ∀ g, g ∉ D → c g = 0
  eqn : ∀ g ∈ D, A.apply act c g = r g

/-- The vector with the blocks `l 0, l 1, ...` in the rows `D[0], D[1], ...` and zero elsewhere. -/
def spread (D : List Nat) (l : Nat → V) : Nat → V := fun g => if g ∈ D then l (D.idxOf g) else 0

/-- The subdomain solver made by `mk` answers a residual `r` on `D` with a correction related to it by `P`. -/
def Answers (mk : SpMat R → List Nat → Res (Solver V)) (A : SpMat R) (P : List Nat → (Nat → V) → (Nat → V) → Prop) : Prop :=
  ∀ (D : List Nat) (S : Solver V), D.Pairwise (· < ·) → (∀ g ∈ D, g < A.n) → mk A D = .ok S →
    ∀ (lhs rhs r l : Nat → V), (∀ k (h : k < D.length), rhs k = r D[k]) → S lhs rhs = .ok l → P D r (spread D l)

/-- One subdomain after the other, each correction computed from the current residual, relaxed and added. -/
inductive Successive [SMul K V] (act : R → V →+ V) (A : SpMat R) (P : List Nat → (Nat → V) → (Nat → V) → Prop) (w : K) (b : Nat → V) :
    List (List Nat) → (Nat → V) → (Nat → V) → Prop
  | nil (x : Nat → V) : Successive act A P w b [] x x
  | cons {D : List Nat} {doms : List (List Nat)} {x c y : Nat → V} (hc : P D (resid act A b x) c)
      (h : Successive act A P w b doms (x + w • c) y) : Successive act A P w b (D :: doms) x y

/-- All corrections computed from the same residual; their sum is relaxed and added. -/
def Together [SMul K V] (act : R → V →+ V) (A : SpMat R) (P : List Nat → (Nat → V) → (Nat → V) → Prop) (w : K) (b : Nat → V)
    (doms : List (List Nat)) (x y : Nat → V) : Prop :=
  ∃ cs : List (Nat → V), List.Forall₂ (fun D c => P D (resid act A b x) c) doms cs ∧ y = x + w • cs.sum

/-- The dense solver of dune-common: a returned vector solves the system. -/
structure DenseSolve (act : R → V →+ V) where
  solve : List (List R) → (Nat → V) → Res (Nat → V)
  sound : ∀ (M : List (List R)) (d y : Nat → V), solve M d = .ok y →
    ∀ i (h : i < M.length), ((List.range M.length).map fun j => match M[i][j]? with | some a => act a (y j) | none => 0).sum = d i

/-- Eliminating the rows of `D` one after the other creates no entry outside the pattern of `A`. -/
def NoFill (A : SpMat R) (D : List Nat) : Prop :=
  ∀ g ∈ D, ∀ h ∈ D, ∀ k ∈ D, k < g → k < h → A.Has g k → A.Has k h → A.Has g h

/-- The rows of `D` have diagonal entries. -/
def DiagOn (A : SpMat R) (D : List Nat) : Prop := ∀ g ∈ D, A.Has g g

end Ovl
end Istl

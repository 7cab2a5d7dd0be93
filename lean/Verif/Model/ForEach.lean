import Verif.Model.Gsetc

/-!
# Flat traversal of nested containers: dune/istl/foreach.hh, and `countNonZeros` of dune/istl/matrixutils.hh

Containers may be nested to any depth and mixed freely. A scalar is represented by the thing handed to the functor (a reference
`S`), and the functor is an arbitrary state transformer, so it may read and write the scalars.
-/

namespace Istl
namespace ForEach

variable {S σ : Type}

/-- A nested vector: a scalar (`IsScalar`), or a container with `ForEach::size` many sub-vectors `vector[i]` (dynamic vectors,
`FieldVector`, `BlockVector`, `MultiTypeBlockVector`, ...). dune/istl/foreach.hh:22-26, 57-61, 74-75. -/
inductive NVec (S : Type) where
  | scalar (s : S)
  | node (n : Nat) (child : Nat → NVec S)

/-- A nested matrix: a scalar; a matrix with `IsRowMajorSparse` (`BCRSMatrix`, `DiagonalMatrix`, `ScaledIdentityMatrix`), where
`pat i` are the column indices of row `i` in iteration order, `entry i j` its blocks and `dflt` a default constructed block; or
any other matrix, accessed by index. dune/istl/foreach.hh:28-44. -/
inductive NMat (S : Type) where
  | scalar (s : S)
  | sparse (n m : Nat) (pat : Nat → List Nat) (entry : Nat → Nat → NMat S) (dflt : NMat S)
  | dense (n m : Nat) (entry : Nat → Nat → NMat S)

/-- `flatVectorForEach`: the new state and the returned count. dune/istl/foreach.hh:92-109. -/
def flatVector (f : S → Nat → σ → σ) : NVec S → Nat → σ → σ × Nat
  | .scalar s, off, st => (f s off st, 1)
  | .node n child, off, st =>
    forRange n (fun i (p : σ × Nat) =>
      let r := flatVector f (child i) (off + p.2) p.1
      (r.1, p.2 + r.2)) (st, 0)

/-- The first stored entry in iteration order, if there is one. dune/istl/foreach.hh:149-154. -/
def firstStored (n : Nat) (pat : Nat → List Nat) : Option (Nat × Nat) :=
  ((List.range n).flatMap fun i => (pat i).map fun j => (i, j)).head?

/-- `assert(c)` (in a build with `NDEBUG` nothing is tested); a failing assertion counts as undefined here. -/
def check (c : Prop) [Decidable c] : Res Unit := if c then .ok () else .ub

/-- Loop state of the index-wise branch: the functor's state, `r`, `c`, and `nRows` (`none` while uninitialised).
dune/istl/foreach.hh:184-185. -/
structure DSt (σ : Type) where
  st : σ
  r : Nat
  c : Nat
  nRows : Option Nat

/-- `r += nRows`; reading `nRows` before it is set is undefined. dune/istl/foreach.hh:193. -/
def addRows (s : DSt σ) : Res (DSt σ) :=
  match s.nRows with
  | some k => .ok { s with r := s.r + k }
  | none => .ub

/-- `flatMatrixForEach`: the new state and the returned pair. dune/istl/foreach.hh:130-197. -/
def flatMatrix : NMat S → (S → Nat → Nat → σ → σ) → Nat → Nat → σ → Res (σ × Nat × Nat)
  | .scalar s, f, ro, co, st => .ok (f s ro co st, 1, 1)
  | .sparse n m pat entry dflt, f, ro, co, st => do
    let b ← (firstStored n pat).elim (flatMatrix dflt (fun _ _ _ st => st) 0 0 st)
      fun ij => flatMatrix (entry ij.1 ij.2) (fun _ _ _ st => st) 0 0 st
    check (b.2.1 ≠ 0 ∨ b.2.2 ≠ 0)
    let st ← forRangeM n (fun i st =>
      (pat i).foldlM (fun st j => do
        let r ← flatMatrix (entry i j) f (ro + i * b.2.1) (co + j * b.2.2) st
        check (r.2.1 = b.2.1 ∧ r.2.2 = b.2.2)
        .ok r.1) st) st
    .ok (st, n * b.2.1, m * b.2.2)
  | .dense n m entry, f, ro, co, st => do
    let s ← forRangeM n (fun i (s : DSt σ) => do
      let s ← forRangeM m (fun j (s : DSt σ) => do
        let r ← flatMatrix (entry i j) f (ro + s.r) (co + s.c) s.st
        .ok ⟨r.1, s.r, s.c + r.2.2, some r.2.1⟩) { s with c := 0 }
      addRows s) ⟨st, 0, 0, none⟩
    .ok (s.st, s.r, s.c)

/-- `countNonZeros`. dune/istl/matrixutils.hh:118-134. -/
def countNonZeros : NMat S → Nat
  | .scalar _ => 1
  | .sparse n _ pat entry _ =>
    forRange n (fun i c => (pat i).foldl (fun c j => c + countNonZeros (entry i j)) c) 0
  | .dense n m entry => forRange n (fun i c => forRange m (fun j c => c + countNonZeros (entry i j)) c) 0

end ForEach
end Istl

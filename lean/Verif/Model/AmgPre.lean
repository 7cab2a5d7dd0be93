import Verif.Model.SpMat
import Verif.Model.Parallel

/-!
# `AMG::pre` and `AMG::post`

Model of dune/istl/paamg/amg.hh:801-875 and 1139-1159: the treatment of Dirichlet rows, the calls of the smoothers and the vectors kept for
the cycle. Block solve (`FieldMatrix::solve`, or a division for scalars) is a parameter.
-/

namespace Istl
namespace Amg
open Par

variable {B V : Type}

/-- What the loop over a row keeps: `isDirichlet`, `hasDiagonal`, `diagonal`. dune/istl/paamg/amg.hh:817-819. -/
structure RowScan (B : Type) where
  isDirichlet : Bool
  hasDiagonal : Bool
  diagonal : B

/-- The loop over the entries of row `i`. dune/istl/paamg/amg.hh:817-828. -/
def scanRow [Zero B] [DecidableEq B] (i : Nat) (r : Row B) : RowScan B :=
  r.foldl (fun s e =>
    if i = e.1 then { s with diagonal := e.2, hasDiagonal := true }
    else if e.2 ≠ 0 then { s with isDirichlet := false }
    else s) ⟨true, false, 0⟩

/-- One row: if all entries off the diagonal are zero, `x[i]` is set to the solution with the diagonal block. dune/istl/paamg/amg.hh:816-834. -/
def dirichletRow [Zero B] [DecidableEq B] (solve : B → V → Res V) (A : SpMat B) (b : Nat → V) (x : Nat → V) (i : Nat) : Res (Nat → V) :=
  let s := scanRow i (A.row i)
  if s.isDirichlet && s.hasDiagonal then do
    let v ← solve s.diagonal (b i)
    .ok (upd x i v)
  else .ok x

/-- The loop over all rows. dune/istl/paamg/amg.hh:816-835. -/
def dirichlet [Zero B] [DecidableEq B] (solve : B → V → Res V) (A : SpMat B) (b x : Nat → V) : Res (Nat → V) :=
  (List.range A.n).foldlM (dirichletRow solve A b) x

/-- The loop over the smoothers below the finest level: positions of the iterators `smoother`, `lhs`, `rhs` at every call.
dune/istl/paamg/amg.hh:863-865. The first argument bounds the iterations. -/
def preLoop (coarsest : Nat) : Nat → Nat × Nat × Nat → List (Nat × Nat × Nat) → List (Nat × Nat × Nat) × (Nat × Nat × Nat)
  | 0, p, calls => (calls, p)
  | k + 1, p, calls => if p.1 ≠ coarsest then preLoop coarsest k (p.1 + 1, p.2.1 + 1, p.2.2 + 1) (calls ++ [p]) else (calls, p)

/-- The calls of `pre` after the one of the finest smoother; `levels` is `smoothers_->levels()`. dune/istl/paamg/amg.hh:851-867. -/
def preCalls (levels : Nat) : List (Nat × Nat × Nat) :=
  if 1 < levels then
    let r := if 0 ≠ levels - 1 then preLoop (levels - 1) levels (1, 1, 1) [] else ([], (0, 0, 0))
    r.1 ++ [r.2]
  else []

/-- The hierarchies of vectors `lhs_` and `rhs_`. -/
structure Vectors (X : Type) where
  lhs : Nat → X
  rhs : Nat → X

/-- `smoother->pre(*lhs,*rhs)` at the given positions. dune/istl/paamg/amg.hh:865, 866. -/
def callPre {X : Type} (pre : Nat → X → X → X × X) (v : Vectors X) (p : Nat × Nat × Nat) : Vectors X :=
  let r := pre p.1 (v.lhs p.2.1) (v.rhs p.2.2)
  ⟨upd v.lhs p.2.1 r.1, upd v.rhs p.2.2 r.2⟩

/-- `AMG::pre(x,b)` after the treatment of Dirichlet rows; `fresh` are the vectors made by `coarsenVector`, `copy` is `copyOwnerToAll(x,x)`.
Returns the vectors of the hierarchy and `x`, `b`. dune/istl/paamg/amg.hh:837-873. Left out: `update_`, which is set like `lhs_` and not used here. -/
def preRest {X : Type} (levels : Nat) (pre : Nat → X → X → X × X) (copy : X → X) (fresh : Vectors X) (x b : X) : Vectors X × X × X :=
  let xb := if 0 < levels then pre 0 x b else (copy x, b)
  let v : Vectors X := ⟨fun l => if l = 0 then xb.1 else fresh.lhs l, fun l => if l = 0 then xb.2 else fresh.rhs l⟩
  let v := (preCalls levels).foldl (callPre pre) v
  (v, v.lhs 0, v.rhs 0)

/-- `AMG::pre(x,b)` on one process. dune/istl/paamg/amg.hh:801-875. -/
def amgPre [Zero B] [DecidableEq B] (solve : B → V → Res V) (A : SpMat B) (levels : Nat) (pre : Nat → (Nat → V) → (Nat → V) → (Nat → V) × (Nat → V))
    (copy : (Nat → V) → (Nat → V)) (fresh : Vectors (Nat → V)) (x b : Nat → V) : Res (Vectors (Nat → V) × (Nat → V) × (Nat → V)) := do
  let x ← dirichlet solve A b x
  .ok (preRest levels pre copy fresh x b)

/-- The loop over the smoothers in `post`. dune/istl/paamg/amg.hh:1152-1153. The first argument bounds the iterations. -/
def postLoop (coarsest : Nat) : Nat → Nat × Nat → List (Nat × Nat) → List (Nat × Nat) × (Nat × Nat)
  | 0, p, calls => (calls, p)
  | k + 1, p, calls => if p.1 ≠ coarsest then postLoop coarsest k (p.1 + 1, p.2 + 1) (calls ++ [p]) else (calls, p)

/-- The calls of `post`: positions of smoother and vector; `levels` is `smoothers_->levels()`, `mlevels` and `maxlevels` are those of the
matrix hierarchy. dune/istl/paamg/amg.hh:1145-1155. -/
def postCalls (levels mlevels maxlevels : Nat) : List (Nat × Nat) :=
  if 0 < levels then
    let first : List (Nat × Nat) := if 0 ≠ levels - 1 ∨ mlevels < maxlevels then [(0, 0)] else []
    let r := if 0 ≠ levels - 1 then postLoop (levels - 1) levels (1, 1) first else (first, (0, 0))
    r.1 ++ [r.2]
  else []

/-- `AMG::pre` on all processes with the parallel smoothers of the overlapping category, whose `pre` is `copyOwnerToAll(x,x)` (and the `pre` of
the sequential smoother, which does nothing); without smoothers `pre` does the same by hand. Only `x` on the finest level.
dune/istl/paamg/amg.hh:801-841, dune/istl/schwarz.hh:206-209, 326-330. -/
def amgPrePar [Zero B] [DecidableEq B] (solve : B → V → Res V) (P : Nat) (pis : Nat → PIS) (A : Nat → SpMat B) (order : Nat → List Nat)
    (x b : Nat → Nat → V) : Res (Nat → Nat → V) := do
  let y ← (List.range P).foldlM (fun (y : Nat → Nat → V) p => do
    let v ← dirichlet solve (A p) (b p) (x p)
    .ok (upd y p v)) x
  .ok fun q => copyOwnerToAll pis y y q (order q)

end Amg
end Istl

import Verif.Model.Aggregator
import Mathlib.Order.Lattice
import Mathlib.Order.Defs.LinearOrder

/-!
# Strong connections: `buildDependency` and the dependency criteria of dune/istl/paamg/aggregates.hh

Three criteria: `SymmetricMatrixDependency`, `SymmetricDependency` (used by `SymmetricCriterion`) and `Dependency` (used by
`UnSymmetricCriterion`). The criterion object keeps its fields between the calls, the second pass over a row reads what the first one
left in them. Arithmetic is exact in a linearly ordered field `R`; `-std::numeric_limits<real_type>::max()` is the parameter `lo`; the
norm functor and the Frobenius norm of a block are parameters. The graph is the one of the whole matrix (sequential case, so that
`graph` and the matrix pattern agree). Division by a zero norm (infinity or NaN in the code) is not modelled; the statements exclude it.
-/

namespace Istl
namespace Amg

variable {B R : Type}

/-- A norm functor with its constant `is_sign_preserving`. dune/istl/paamg/aggregates.hh:377-513 (`Diagonal`, `RowSum`,
`FrobeniusNorm`, `AlwaysOneNorm`). -/
structure NormF (B R : Type) where
  val : B → R
  keepsSign : Bool

/-- The parameters of a criterion and the number `-max` that it starts the maximum from. dune/istl/paamg/parameters.hh:30-77;
dune/istl/paamg/aggregates.hh:206, 1420, 1488. -/
structure DepPar (R : Type) where
  alpha : R
  beta : R
  lo : R

/-- The fields of a criterion object: `row_`, `maxValue_`, `diagonal_`, `vals_`, `valIter_`.
dune/istl/paamg/aggregates.hh:175-190, 299-309. -/
structure CritSt (R : Type) where
  row : Nat
  maxV : R
  diag : R
  vals : List R
  it : Nat

/-- What `buildDependency` calls on a criterion. dune/istl/paamg/aggregates.hh:155-164. -/
structure Criterion (B R : Type) where
  initRow : SpMat B → Nat → Res (CritSt R)
  examine : SpMat B → Nat × B → CritSt R → Res (CritSt R)
  isIsolated : CritSt R → Res (Bool × CritSt R)
  examineEdge : SpMat B → Nat × Nat → Nat × B → CritSt R × Props → Res (CritSt R × Props)

/-- `properties().setDepends()` of the edge `(s,t)`. dune/istl/paamg/dependency.hh:338-343. -/
def Props.setDep (P : Props) (s t : Nat) : Props := { P with dep := fun a b => if a = s ∧ b = t then true else P.dep a b }

/-- `properties().setInfluences()` of the edge `(s,t)`. dune/istl/paamg/dependency.hh:325-330. -/
def Props.setInfl (P : Props) (s t : Nat) : Props := { P with infl := fun a b => if a = s ∧ b = t then true else P.infl a b }

/-- `setDepends(); setInfluences();` of the edge `(s,t)`. dune/istl/paamg/aggregates.hh:233-234, 1458-1459. -/
def Props.setBoth (P : Props) (s t : Nat) : Props := (P.setDep s t).setInfl s t

section
variable [Field R] [LinearOrder R]

/-- `norm_(matrix[j][j])`. dune/istl/paamg/aggregates.hh:208, 220, 1422, 1444, 1490. -/
def diagNorm (N : NormF B R) (A : SpMat B) (j : Nat) : Res R := do
  let b ← (A.row j).get j
  .ok (N.val b)

/-- `!N::is_sign_preserving || eij<0`. dune/istl/paamg/aggregates.hh:218. -/
def NormF.counts (N : NormF B R) (x : R) : Bool := !N.keepsSign || decide (x < 0)

/-- `SymmetricMatrixDependency`. dune/istl/paamg/aggregates.hh:192-248. -/
def symMatrixCrit (N : NormF B R) (p : DepPar R) : Criterion B R where
  initRow A v := do
    let d ← diagNorm N A v
    .ok ⟨v, p.lo, d, List.replicate (A.row v).length 0, 0⟩
  examine A e s :=
    let eij := N.val e.2
    if N.counts eij = true then do
      let dj ← diagNorm N A e.1
      let vals ← wr s.vals s.it (eij / s.diag * eij / dj)
      .ok { s with vals := vals, maxV := max s.maxV (eij / s.diag * eij / dj), it := s.it + 1 }
    else do
      let vals ← wr s.vals s.it 0
      .ok { s with vals := vals, it := s.it + 1 }
  isIsolated s := if s.diag = 0 then .throw .istlError else .ok (decide (s.maxV < p.beta), { s with it := 0 })
  examineEdge _ ed _ q := do
    let x ← rd q.1.vals q.1.it
    .ok ({ q.1 with it := q.1.it + 1 }, if x > p.alpha * q.1.maxV then q.2.setBoth ed.1 ed.2 else q.2)

/-- `*matrix_->operator[](col.index()).find(row_)`, `none` if that is the end. dune/istl/paamg/aggregates.hh:1430-1437, 1451-1458. -/
def opposite (A : SpMat B) (j row : Nat) : Res (Option B) := do
  let k ← (A.row j).find row
  match k with
  | none => .ok none
  | some k => do
    let e ← rd (A.row j) k
    .ok (some e.2)

/-- `graph.getEdgeProperties(target, source)` for an edge that does not exist reads outside the array.
dune/istl/paamg/aggregates.hh:1469; graph.hh:1507-1522. -/
def setOpposite (A : SpMat B) (ed : Nat × Nat) (P : Props) : Res Props :=
  if findEdge A ed.2 ed.1 = none then .ub else .ok (P.setBoth ed.2 ed.1)

/-- `SymmetricDependency`. dune/istl/paamg/aggregates.hh:1398-1477. -/
def symCrit (N : NormF B R) (p : DepPar R) : Criterion B R where
  initRow A v := do
    let d ← diagNorm N A v
    .ok ⟨v, p.lo, d, [], 0⟩
  examine A e s := do
    let eij := N.val e.2
    let o ← opposite A e.1 s.row
    match o with
    | none => .ok s
    | some b =>
      let eji := N.val b
      if (N.counts eij || N.counts eji) = true then do
        let dj ← diagNorm N A e.1
        .ok { s with maxV := max s.maxV (eij / s.diag * eji / dj) }
      else .ok s
  isIsolated s := .ok (decide (s.maxV < p.beta), s)
  examineEdge A ed e q := do
    let eij := N.val e.2
    let o ← opposite A e.1 q.1.row
    match o with
    | none => .ok q
    | some b =>
      let eji := N.val b
      if (N.counts eij || N.counts eji) = true then do
        let dj ← diagNorm N A ed.2
        if eji / dj * eij / q.1.diag > p.alpha * q.1.maxV then do
          let P ← setOpposite A ed (q.2.setBoth ed.1 ed.2)
          .ok (q.1, P)
        else .ok q
      else .ok q

/-- `Dependency`. dune/istl/paamg/aggregates.hh:1480-1525. -/
def unsymCrit (N : NormF B R) (p : DepPar R) : Criterion B R where
  initRow A v := do
    let d ← diagNorm N A v
    .ok ⟨v, p.lo, d, [], 0⟩
  examine _ e s := .ok { s with maxV := max s.maxV (-(N.val e.2)) }
  isIsolated s := .ok (decide (s.maxV < p.beta * s.diag), s)
  examineEdge A ed e q :=
    .ok (q.1, if -(N.val e.2) ≥ q.1.maxV * p.alpha then
      (if findEdge A ed.2 ed.1 = none then q.2.setDep ed.1 ed.2 else (q.2.setDep ed.1 ed.2).setInfl ed.2 ed.1) else q.2)

/-- The first pass over the columns of a row; the second component is `absoffdiag`. dune/istl/paamg/aggregates.hh:1836-1854. -/
def firstPass (C : Criterion B R) (frob : B → R) (A : SpMat B) (v : Nat) (first : Bool) :
    List (Nat × B) → CritSt R × R → Res (CritSt R × R)
  | [], s => .ok s
  | e :: r, s =>
    if e.1 ≠ v then do
      let st ← C.examine A e s.1
      firstPass C frob A v first r (st, if first then max s.2 (frob e.2) else s.2)
    else firstPass C frob A v first r s

/-- `while(col.index()!=edge.target()) ++col;`, reading past the end is undefined. dune/istl/paamg/aggregates.hh:1869-1871. -/
def seekCol (t : Nat) : List (Nat × B) → Res (List (Nat × B))
  | [] => .ub
  | e :: r => if e.1 = t then .ok (e :: r) else seekCol t r

/-- The second pass: the edges of a vertex in step with the columns of its row. dune/istl/paamg/aggregates.hh:1864-1873. -/
def edgeWalk (C : Criterion B R) (A : SpMat B) (v : Nat) :
    List Nat → List (Nat × B) → CritSt R × Props → Res (CritSt R × Props)
  | [], _, s => .ok s
  | t :: ts, l, s => do
    let l ← seekCol t l
    match l with
    | [] => .ub
    | e :: r => do
      let s ← C.examineEdge A (v, t) e s
      edgeWalk C A v ts r s

/-- `if(absoffdiag==0) vertex.properties().setExcludedBorder();` on the first level. dune/istl/paamg/aggregates.hh:1848-1849. -/
def markBorder (first : Bool) (v : Nat) (off : R) (P : Props) : Props :=
  if first = true ∧ off = 0 then { P with excluded := upd P.excluded v true } else P

/-- The loop body of `buildDependency`. dune/istl/paamg/aggregates.hh:1824-1876. -/
def depVertex (C : Criterion B R) (frob : B → R) (A : SpMat B) (first : Bool) (v : Nat) (P : Props) : Res Props := do
  let s ← C.initRow A v
  let s ← firstPass C frob A v first (A.row v) (s, 0)
  let iso ← C.isIsolated s.1
  if iso.1 = true then .ok { markBorder first v s.2 P with isolated := upd (markBorder first v s.2 P).isolated v true }
  else do
    let r ← edgeWalk C A v ((matrixEdges A v).map Prod.fst) (A.row v) (iso.2, markBorder first v s.2 P)
    .ok r.2

/-- The loop of `buildDependency` over the vertices. dune/istl/paamg/aggregates.hh:1824. -/
def depLoop (C : Criterion B R) (frob : B → R) (A : SpMat B) (first : Bool) : List Nat → Props → Res Props
  | [], P => .ok P
  | v :: vs, P => do
    let P ← depVertex C frob A first v P
    depLoop C frob A first vs P

/-- The flags of a new graph: none is set. dune/istl/paamg/dependency.hh:305-307, 389-391. -/
def noFlags : Props := ⟨fun _ => false, fun _ => false, fun _ _ => false, fun _ _ => false⟩

/-- `buildDependency(graph, matrix, criterion, firstlevel)` on the new graph of the matrix. dune/istl/paamg/aggregates.hh:1813-1877. -/
def buildDependency (C : Criterion B R) (frob : B → R) (A : SpMat B) (first : Bool) : Res Props :=
  depLoop C frob A first (List.range A.n) noFlags

end

/-- The loop of `setDefaultValuesIsotropic`: `csize` and `maxDistance_`. dune/istl/paamg/parameters.hh:114-117. -/
def isoLoop (diameter : Nat) : Nat → Nat × Nat → Nat × Nat
  | 0, s => s
  | dim + 1, s => isoLoop diameter dim (s.1 * diameter, s.2 + (diameter - 1))

/-- `setDefaultValuesIsotropic(dim, diameter)`; `static_cast<std::size_t>(csize*1.5)` is exact. dune/istl/paamg/parameters.hh:109-120. -/
def setIsotropic (c : Crit) (dim diameter : Nat) : Crit :=
  let r := isoLoop diameter dim (1, diameter - 1)
  { c with maxDistance := r.2, minSize := r.1, maxSize := r.1 * 3 / 2 }

/-- `setDefaultValuesAnisotropic(dim, diameter)`. dune/istl/paamg/parameters.hh:132-136. -/
def setAnisotropic (c : Crit) (dim diameter : Nat) : Crit :=
  let c := setIsotropic c dim diameter
  { c with maxDistance := c.maxDistance + (dim - 1) }

/-- The default constructor of `AggregationParameters`. dune/istl/paamg/parameters.hh:95-98. -/
def defaultCrit : Crit := ⟨4, 6, 2, 15, false⟩

end Amg
end Istl
